import Verif.Model.Store
import Verif.Model.Logger
/-!
# The log calls of the store

The code of the store logs, and a log call that gets through the filter ends in `post(..).unwrap()` on the log thread
(src/log/logger.rs:55-60): once that thread is dead - a user's logger panicked - the log call panics, in the thread that logs.
Here are `Config::expand`, `IOWriter::write` and `MmkvImpl::new` with every log call in its place; without them they are those
of Model/Store.
-/

namespace Mmkv

/-- What the code of a store sees of the logger: `LOG_LEVEL` (src/log/logger.rs:77), and how many more messages the log
thread takes before it is dead (`none`: it stays alive). -/
structure Logs where
  level : Int := 5
  left : Option Nat := none
deriving DecidableEq, Repr

/-- A writer and the logger. -/
abbrev LState := WState × Logs

/-- A log call: `log`, src/log/logger.rs:66-71, and the `unwrap` in `format_log` (55-60). -/
def say (lv : LogLevel) (p : LState) : Run LState :=
  if p.2.level < lv.code then .done p
  else match p.2.left with
    | none => .done p
    | some 0 => .panic p
    | some (n + 1) => .done (p.1, { p.2 with left := some n })

/-- Several log calls in a row. -/
def sayN (lv : LogLevel) : Nat → LState → Run LState
  | 0, p => .done p
  | n + 1, p => (say lv p).andThen (sayN lv n)

/-- Code that does not log. -/
def mute (f : WState → Run WState) (p : LState) : Run LState :=
  match f p.1 with
  | .done s => .done (s, p.2)
  | .panic s => .panic (s, p.2)

namespace WState

/-- `set_len` in `Config::expand`, src/core/config.rs:42; `none` in `quota`: no limit. -/
def growFile (s : WState) : Run WState :=
  let n := s.file.length + s.page
  if s.quota.all (fun q => n ≤ q) then .done { s with file := s.file ++ zeros s.page, log := s.log ++ [.setLen n] }
  else .panic s

/-- `self.mm = MemoryMap::new(..)`, src/core/writer.rs:101: the file is mapped in full. -/
def remap (s : WState) : Run WState := .done { s with mmLen := s.file.length }

/-- `IOWriter::expand`, src/core/writer.rs:99-102, with the log calls of `Config::expand`, src/core/config.rs:39, 43-48. -/
def expandL (p : LState) : Run LState :=
  (((say .info p).andThen (mute growFile)).andThen (say .info)).andThen (mute remap)

end WState

/-- The `error!` calls made while a file is read: one for each record that does not decode (src/core/crc.rs:40,
src/core/encrypt.rs:157), and one when the iteration stops early (src/core/iter.rs:75). -/
def iterErrors (c : Codec) : (fuel : Nat) → (position : Nat) → Bytes → Nat
  | _, _, [] => 0
  | 0, _, _ :: _ => 0
  | fuel + 1, position, b :: bs =>
    match c.dec (b :: bs) position with
    | .panic => 0
    | .err _ => 1
    | .ok buffer len => (if buffer.isNone then 1 else 0) + iterErrors c fuel (position + 1) ((b :: bs).drop len)

namespace WState

/-- The `error!` calls of `mm.iter(decode).into_map()`, src/core/iter.rs:18-54. -/
def readErrors (s : WState) (c : Codec) : Nat :=
  match s.writeOffset with
  | none => 0
  | some endOff =>
    let content := (s.file.take endOff).drop lenOffset
    iterErrors c content.length 0 content

/-- The rewrite loop, src/core/writer.rs:75-82, with the log calls of `expand`. -/
def trimLoopL (c : Codec) (maxLen : Nat) : List Buffer → LState → Run LState
  | [], p => .done p
  | b :: rest, p =>
    match c.enc b p.1.position with
    | none => .panic p
    | some bytes =>
      match p.1.writeOffset with
      | none => .panic p
      | some off =>
        (((if off + bytes.length > maxLen then expandL p else .done p).andThen
            (mute fun s => s.append bytes)).andThen
          (mute fun s => .done { s with position := s.position + 1 })).andThen
          (trimLoopL c maxLen rest)

/-- `IOWriter::write`, src/core/writer.rs:39-97, with its log calls (57-62, 72, 84-90) and those of the code it calls.
Simplification: the messages of a read that panics are not counted. -/
def writeL (c : Codec) (order : List Buffer → List Buffer) (buffer : Buffer) (duplicated : Bool) (p : LState) : Run LState :=
  match c.enc buffer p.1.position with
  | none => .panic p
  | some data =>
    match p.1.writeOffset with
    | none => .panic p
    | some off =>
      let targetEnd := data.length + off
      let maxLen := p.1.mmLen
      let p := if duplicated then ({ p.1 with needTrim := true }, p.2) else p
      if targetEnd ≤ maxLen then
        mute (fun s => (s.append data).andThen fun s => .done { s with position := s.position + 1 }) p
      else if p.1.needTrim then
        ((say .info p).andThen (say .info)).andThen fun p =>
          match p.1.readItems c with
          | none => .panic p
          | some items =>
            let snapshot := mapStep (intoMap items).1 (some buffer)
            (((((sayN .error (p.1.readErrors c) p).andThen (say .info)).andThen (mute reset)).andThen fun p =>
              trimLoopL c maxLen (order snapshot.values) ({ p.1 with position := 0 }, p.2)).andThen
              (mute fun s => .done { s with needTrim := false })).andThen (say .info)
      else
        (expandL p).andThen (mute fun s => (s.append data).andThen fun s => .done { s with position := s.position + 1 })

end WState

/-- `Config::new` + `MmkvImpl::new` with the log calls, src/core/mmkv_impl.rs:54-61 and those of the iteration; `none` is a
panic. -/
def openStoreL (c : Codec) (page : Nat) (file : Bytes) (l : Logs) : Option (Opened × Logs) :=
  match openStore c page file with
  | none => none
  | some o =>
    match (sayN .error (o.ws.readErrors c) (o.ws, l)).andThen (say .info) with
    | .done p => some (o, p.2)
    | .panic _ => none

/-- A job of the background thread: the order a hash map yields, the record, and whether it replaces one. -/
abbrev WriteJob := (List Buffer → List Buffer) × Buffer × Bool

/-- The background thread at work, src/core/io_looper.rs:116-126: the jobs one after the other; a panic ends it. -/
def jobsL (c : Codec) : List WriteJob → LState → Run LState
  | [], p => .done p
  | (o, b, d) :: js, p => (WState.writeL c o b d p).andThen (jobsL c js)

/-- The same with no log calls. -/
def jobs (c : Codec) : List WriteJob → WState → Run WState
  | [], s => .done s
  | (o, b, d) :: js, s => (WState.write c o b d s).andThen (jobs c js)

end Mmkv
