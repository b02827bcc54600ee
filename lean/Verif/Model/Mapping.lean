import Verif.Model.Instance
/-!
# Dropping a mapping: `impl Drop for MemoryMap`, src/core/memory_map.rs:85-89

`drop` calls `msync` on the first `write_offset()` bytes and unwraps the result.  `msync` fails (`ENOMEM`) when part of
the range is not mapped.  A panic in a destructor that runs while another panic unwinds the thread ends the process
(a rule of the Rust language).
-/

namespace Mmkv

/-- What `msync` answers: `sync len n` for the first `n` bytes of a mapping of `len` bytes.  Beyond the mapping the answer
depends on what else happens to be mapped behind it. -/
abbrev Msync := Nat → Nat → Bool

/-- `msync` does not fail inside the mapping. -/
def Msync.Sound (sync : Msync) : Prop := ∀ len n, n ≤ len → sync len n = true

/-- Nothing is mapped behind the mapping, so that `msync` fails beyond its end.  Simplification: at byte rather than page
granularity. -/
def Msync.Bare (sync : Msync) : Prop := ∀ len n, len < n → sync len n = false

/-- `MemoryMap::drop`, src/core/memory_map.rs:85-89: whether it returns (it panics if `write_offset` does, or if `msync`
fails). -/
def WState.dropReturns (sync : Msync) (s : WState) : Bool :=
  match s.writeOffset with
  | none => false
  | some off => sync s.mmLen off

/-- How a piece of code ends. -/
inductive Ending where
  | returned | panicked | aborted
deriving DecidableEq, Repr

/-- A panic while the mapping of `s` is alive: unwinding drops it. -/
def unwindWith (sync : Msync) (s : WState) : Ending := if s.dropReturns sync then .panicked else .aborted

/-- `MMKV::new` / `MmkvImpl::new`, src/core/mmkv_impl.rs:28-63, with what happens when it panics: the mapping `mm` made
in line 36 is dropped while unwinding.  (If `mmap` itself fails there is nothing to drop.) -/
def openEnding (sync : Msync) (c : Codec) (page : Nat) (file : Bytes) (usizeBytes : Nat := 8) (quota : Option Nat := none) :
    Ending :=
  match openStore c page file usizeBytes quota with
  | some _ => .returned
  | none =>
    if (configNew page file).length = 0 then .panicked
    else unwindWith sync { file := configNew page file, mmLen := (configNew page file).length, page, position := 0,
                           needTrim := false, usizeBytes, quota }

/-- A background write, src/core/writer.rs:39-97, with what happens when it panics: the closure of the IO thread
(src/core/io_looper.rs:112) owns the writer, so unwinding drops the mapping. -/
def writeEnding (sync : Msync) (c : Codec) (order : Order) (b : Buffer) (dup : Bool) (s : WState) : Ending :=
  match s.write c order b dup with
  | .done _ => .returned
  | .panic s' => unwindWith sync s'

namespace Inst
variable {ι : Type}

/-- How one event of a store (`Inst.step`) ends for the thread that makes it: a background job may panic or end the
process; the re-creation inside `clear_data` (src/mmkv.rs:213-219) too. -/
def stepEnding (sync : Msync) (codecs : ι → Codec) (s : Inst ι) : Ev ι → Option Ending
  | .io o =>
    (step codecs s (.io o)).map fun _ =>
      match s.lp.io, s.lp.buf with
      | .run, .write b dup :: _ => writeEnding sync (codecs s.idx) o b dup s.lp.cb.ws
      | _, _ => .returned
  | .api i =>
    (step codecs s (.api i)).map fun p =>
      match p.2 with
      | some .panic =>
        match openEnding sync (codecs (if s.lp.cb.removed then i else s.idx)) s.lp.cb.ws.page s.disk s.lp.cb.ws.usizeBytes
          s.lp.cb.ws.quota with
        | .aborted => .aborted
        | _ => .panicked
      | _ => .returned
  | e => (step codecs s e).map fun p => match p.2 with
    | some .panic => .panicked
    | _ => .returned

/-- The drop of the writer when the IO thread leaves its loop, src/core/io_looper.rs:115-117 and 127-129. -/
def exitEnding (sync : Msync) (s : Inst ι) : Ending := if s.lp.cb.ws.dropReturns sync then .returned else .panicked

end Inst
end Mmkv
