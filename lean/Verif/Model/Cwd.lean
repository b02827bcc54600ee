import Verif.Model.World
/-!
# A process that changes its working directory

"Absolute or relative paths are acceptable" (src/mmkv.rs:57-59).  The library never makes a path absolute: the registry is keyed by the
string as given (src/mmkv.rs:70-104), and the path kept in the store (src/core/config.rs:29-33) and the one kept in the handle
(src/mmkv.rs:36-41, 212) are resolved by the kernel each time they are used, against the working directory of that moment.
-/

namespace Mmkv
variable {ι : Type}

/-- As `Sys`, but which data file a string names, and whether `resolve_file_path` (src/mmkv.rs:114-126) accepts it, depends on the working
directory. -/
structure Places (ι : Type) where
  codecs : ι → Codec
  page : Nat
  fileOf : String → String → Nat
  dirOk : String → String → Bool := fun _ _ => true
  keyOk : ι → Bool := fun _ => true

/-- The surroundings while the working directory is `c`. -/
def Places.at (P : Places ι) (c : String) : Sys ι :=
  { codecs := P.codecs, page := P.page, fileOf := P.fileOf c, dirOk := P.dirOk c, keyOk := P.keyOk }

/-- The process and its working directory. -/
structure Roaming (ι : Type) where
  cwd : String
  w : World ι

/-- `chdir`, by any thread at any moment, or an event of the library.  Simplification: the calls of one `MMKV::new` (or of the last step of
one `clear_data`) that take the path - `is_dir`, `metadata`, `open` - see the same working directory. -/
inductive CEv (ι : Type) where
  | chdir (c : String)
  | act (e : WEv ι)

namespace Roaming

/-- The end of a `clear_data` whose `resolve_file_path` panics (src/mmkv.rs:212, 116-124): under the write lock, which is poisoned; the store
stays as it is, with its thread gone. -/
def reopenPanic (w : World ι) (o : Nat) (ob : Obj ι) : World ι :=
  { w with objs := w.objs.set o { ob with inst := { ob.inst with poisoned := true, phase := .idle }, caller := none } }

/-- One event: every path that it takes is resolved against the working directory it finds: in `new` (src/mmkv.rs:98-99), in the removal job
of `clear_data` (src/core/config.rs:55-57) and when it opens the file again (src/mmkv.rs:212-213). -/
def step (P : Places ι) (s : Roaming ι) : CEv ι → Option (Roaming ι × Option WRes)
  | .chdir c => some ({ s with cwd := c }, none)
  | .act (.cont o i) =>
    match s.w.objs[o]? with
    | none => none
    | some ob =>
      if ob.inst.phase = .clrOpen ∧ P.dirOk s.cwd ob.dir = false then some ({ s with w := reopenPanic s.w o ob }, some (.ret .panic))
      else (World.step (P.at s.cwd) s.w (.cont o i)).map fun (w, r) => ({ s with w := w }, some r)
  | .act e => (World.step (P.at s.cwd) s.w e).map fun (w, r) => ({ s with w := w }, some r)

/-- A history: where it ends, and what the events of the library returned. -/
def run (P : Places ι) : Roaming ι → List (CEv ι) → Option (Roaming ι × List WRes)
  | s, [] => some (s, [])
  | s, e :: es =>
    match step P s e with
    | none => none
    | some (s', r) => match run P s' es with
      | none => none
      | some (s'', rs) => some (s'', r.toList ++ rs)

end Roaming
end Mmkv
