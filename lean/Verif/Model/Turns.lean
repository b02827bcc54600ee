import Verif.Model.World
/-!
# Several processes on one data file

README.md:18-19 allows the use from several processes as long as no writes compete.  Each process has its own
`MmkvImpl` (map, queue, background thread, mapping, record counter); what they share is the data file, through
`MAP_SHARED` mappings (src/core/memory_map.rs:29-36).
-/

namespace Mmkv
open Inst

variable {ι : Type}

/-- A data file and the processes that have it open.  The `file` recorded inside a process's writer is refreshed from
the shared one before each of its steps (`Inst.withFile`). -/
structure Shared (ι : Type) where
  file : Bytes
  procs : List (Inst ι) := []

/-- Something happens: a further process opens the directory, or something happens in process `p`. -/
inductive PEv (ι : Type) where
  | start (i : ι)
  | on (p : Nat) (e : Ev ι)

namespace Shared

/-- One event.  A mapping does not grow by itself when another process extends the file: `mmLen` stays what it was
(src/core/memory_map.rs:16-19, 29-36).  Simplifications: steps of different processes do not overlap; `clear_data`,
which unlinks the shared file, is left out (`none`). -/
def step (codecs : ι → Codec) (page : Nat) (w : Shared ι) : PEv ι → Option (Shared ι × Option (Out Unit))
  | .start i =>
    -- src/core/config.rs:15-34, src/core/mmkv_impl.rs:28-63
    match openAt codecs i page w.file with
    | none => none
    | some s => some (⟨s.lp.cb.ws.file, w.procs ++ [s]⟩, none)
  | .on _ .clear => none
  | .on p e =>
    match w.procs[p]? with
    | none => none
    | some s =>
      match Inst.step codecs (s.withFile w.file) e with
      | none => none
      | some (s', r) => some (⟨s'.lp.cb.ws.file, w.procs.set p s'⟩, r)

/-- A history: the final state and the results of the calls that returned. -/
def run (codecs : ι → Codec) (page : Nat) : Shared ι → List (PEv ι) → Option (Shared ι × List (Out Unit))
  | w, [] => some (w, [])
  | w, e :: es =>
    match step codecs page w e with
    | none => none
    | some (w', r) => match run codecs page w' es with
      | none => none
      | some (w'', rs) => some (w'', r.toList ++ rs)

end Shared

/-- A process that is doing nothing to the file: no mutating call is under way and its queue and the buffer of its
background thread are empty. -/
def Inst.Resting (s : Inst ι) : Prop := (s.phase = .idle ∨ s.phase = .closed) ∧ s.lp.queue = [] ∧ s.lp.buf = []

instance (s : Inst ι) : Decidable s.Resting := inferInstanceAs (Decidable (_ ∧ _ ∧ _))

namespace Shared

/-- Every process but `p` is resting. -/
def OthersRest (w : Shared ι) (p : Nat) : Prop := ∀ q, q < w.procs.length → q ≠ p → ∀ s, w.procs[q]? = some s → s.Resting

/-- Every process is resting. -/
def AllRest (w : Shared ι) : Prop := ∀ s ∈ w.procs, s.Resting

/-- No write competes: a process opens the file, or begins a `put` or `delete`, only while no other process has
anything under way. -/
def MayStart (w : Shared ι) : PEv ι → Prop
  | .start _ => w.AllRest
  | .on p (.put ..) => w.OthersRest p
  | .on p (.delete _) => w.OthersRest p
  | _ => True

/-- The processes take turns throughout a history. -/
def TakeTurns (codecs : ι → Codec) (page : Nat) : Shared ι → List (PEv ι) → Prop
  | _, [] => True
  | w, e :: es => w.MayStart e ∧ match step codecs page w e with
    | none => True
    | some (w', _) => TakeTurns codecs page w' es

end Shared
end Mmkv
