import Verif.Model.Instance
/-!
# A system call that fails while the data file grows

`IOWriter::expand` (src/core/writer.rs:99-102) and `Config::expand` (src/core/config.rs:36-49) make seven system calls, and
`unwrap` the result of each: asking for the size of the file, `fsync`, `ftruncate`, asking for the size twice more (for
the log line, whose arguments are evaluated whatever the log level, and for the new mapping), `mmap`, and the `msync` in
the drop of the old mapping.  `WState.expand` takes all but `ftruncate` to succeed; here any one of them fails.
-/

namespace Mmkv

/-- The system calls of one growth of the file, in order: `metadata` (src/core/config.rs:38 and 52), `sync_all` (41),
`set_len` (42), `metadata` again (46 and src/core/writer.rs:101), `mmap` (src/core/memory_map.rs:24-31 and 93), `msync` of
the old mapping, which is dropped when the new one takes its place (src/core/memory_map.rs:85-89). -/
inductive GrowCall where
  | stat | sync | resize | restat | map | flush
deriving DecidableEq, Repr

namespace WState

/-- The writer when the system call `p` of a growth fails and `unwrap` panics: up to `set_len` nothing has happened; then
the file is longer by a page and the old mapping is in use; a failing `msync` in the drop of the old mapping finds the
new one made, and an assignment whose drop panics still stores the new value (src/core/writer.rs:101). -/
def growFail (s : WState) : GrowCall → WState
  | .stat | .sync | .resize => s
  | .restat | .map => { s with file := s.file ++ zeros s.page, log := s.log ++ [.setLen (s.file.length + s.page)] }
  | .flush => { s with file := s.file ++ zeros s.page, mmLen := s.file.length + s.page,
                       log := s.log ++ [.setLen (s.file.length + s.page)] }

/-- The rewrite loop of a compaction (src/core/writer.rs:75-82), as `trimLoop`, with the system call `p` failing when the
file is to grow for the `skip + 1`st time. -/
def trimLoopF (c : Codec) (maxLen : Nat) (p : GrowCall) : (skip : Nat) → List Buffer → WState → Run WState
  | _, [], s => .done s
  | skip, b :: rest, s =>
    match c.enc b s.position with
    | none => .panic s
    | some bytes =>
      match s.writeOffset with
      | none => .panic s
      | some off =>
        if off + bytes.length > maxLen then
          match skip with
          | 0 => .panic (s.growFail p)
          | skip + 1 => ((s.expand.andThen fun s => s.append bytes).andThen
              fun s => .done { s with position := s.position + 1 }).andThen
              fun s => trimLoopF c maxLen p skip rest s
        else
          ((s.append bytes).andThen fun s => .done { s with position := s.position + 1 }).andThen
            fun s => trimLoopF c maxLen p skip rest s

/-- `IOWriter::write` (src/core/writer.rs:39-97), as `write`, with the system call `p` failing when the file is to grow for
the `skip + 1`st time in this write. -/
def writeF (c : Codec) (order : List Buffer → List Buffer) (buffer : Buffer) (duplicated : Bool) (skip : Nat) (p : GrowCall)
    (s : WState) : Run WState :=
  match c.enc buffer s.position with
  | none => .panic s
  | some data =>
    match s.writeOffset with
    | none => .panic s
    | some off =>
      let targetEnd := data.length + off
      let maxLen := s.mmLen
      let s := if duplicated then { s with needTrim := true } else s
      if targetEnd ≤ maxLen then
        (s.append data).andThen fun s => .done { s with position := s.position + 1 }
      else if s.needTrim then
        match s.readItems c with
        | none => .panic s
        | some items =>
          let snapshot := mapStep (intoMap items).1 (some buffer)
          (s.reset.andThen fun s =>
            trimLoopF c maxLen p skip (order snapshot.values) { s with position := 0 }).andThen
            fun s => .done { s with needTrim := false }
      else
        match skip with
        | 0 => .panic (s.growFail p)
        | _ + 1 => (s.expand.andThen fun s => s.append data).andThen
            fun s => .done { s with position := s.position + 1 }

end WState

/-- Running a job (`execJob`) with a failing growth. -/
def execJobF (c : Codec) (skip : Nat) (p : GrowCall) (order : List Buffer → List Buffer) : Job → Cb → Run Cb
  | .write b dup, cb =>
    match cb.ws.writeF c order b dup skip p with
    | .done ws => .done { cb with ws := ws }
    | .panic ws => .panic { cb with ws := ws }
  | .remove, cb => .done { cb with removed := true }

variable {ι : Type}

/-- A step of the background thread (src/core/io_looper.rs:112-131) in which the system call `p` fails when the file is to
grow for the `skip + 1`st time. -/
def Inst.growStep (codecs : ι → Codec) (s : Inst ι) (o : Order) (skip : Nat) (p : GrowCall) : Option (Inst ι) :=
  match Looper.ioStep (fun o j cb => execJobF (codecs s.idx) skip p o j cb) o s.lp with
  | none => none
  | some lp => some { s with lp := lp }

end Mmkv
