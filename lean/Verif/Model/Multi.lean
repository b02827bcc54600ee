import Verif.Model.Threads
/-!
# Threads on a whole process

Any number of threads open directories with `MMKV::new` and make calls on the stores they get, over any number of directories.
`Model/Threads` is one store with its lock; here the registry (`INSTANCE_MAP`, src/mmkv.rs:33-34) is put in front of any number of
them.  Handles are kept until the end of the process (dropping them: `Model/World`, C27, C28, C30), and no two of the strings name
the same directory (else: C29).
-/

namespace Mmkv
variable {ι : Type}

/-- What a process starts with: the codecs, the page size, for each directory its data file, the key and nonce it is opened with, and
whether `resolve_file_path` (src/mmkv.rs:114-126) and `Encryptor::init` (src/core/encrypt.rs:34-43) accept directory and key. -/
structure MSys (ι : Type) where
  codecs : ι → Codec
  page : Nat
  file : String → Bytes
  key : String → ι
  dirOk : String → Bool := fun _ => true

/-- A call made by a thread: `MMKV::new(dir)`, or a call on a handle of `dir`. -/
inductive MOp where
  | new (dir : String)
  | on (dir : String) (op : Op)
deriving DecidableEq, Repr

/-- What it returns: a handle, a panic, or what the call on the store returns. -/
inductive MRes where
  | opened
  | panicked
  | res (r : Res)
deriving DecidableEq, Repr

/-- Where a thread is in `MMKV::new`: not in it, before the look-up (src/mmkv.rs:71), between look-up and creation (line 81), about to
return. -/
inductive NSt where
  | idle
  | look (dir : String)
  | create (dir : String)
  | done (r : MRes)
deriving DecidableEq, Repr

/-- The process: whether the lock of the registry is poisoned, the registry (every entry is alive, since no handle is dropped), and the
threads in `MMKV::new`. -/
structure Multi (ι : Type) where
  poisoned : Bool := false
  stores : List (String × Threads ι) := []
  th : Nat → NSt := fun _ => .idle

/-- A step: of a thread in `MMKV::new`, or of store number `k` (its callers and its background thread). -/
inductive MEv (ι : Type) where
  | call (t : Nat) (dir : String)
  | look (t : Nat)
  | create (t : Nat)
  | ret (t : Nat)
  | on (k : Nat) (e : TEv ι)

namespace Multi

/-- Thread `t` of `MMKV::new` goes to `x`. -/
def goto (m : Multi ι) (t : Nat) (x : NSt) : Multi ι := { m with th := fun u => if u = t then x else m.th u }

/-- The thread is in no call at all. -/
def free (m : Multi ι) (t : Nat) : Bool := m.th t == .idle && m.stores.all fun p => p.2.th t == .idle

/-- `instance_map.get(dir)`, src/mmkv.rs:72, 85. -/
def has (m : Multi ι) (dir : String) : Bool := m.stores.any fun p => p.1 == dir

/-- An event of a store, as seen in the process. -/
def lift (dir : String) : Spec.HEv Op Res → Spec.HEv MOp MRes
  | .inv t op => .inv t (.on dir op)
  | .res t r => .res t (.res r)

/-- The thread that makes a call with this event, if it is the start of a call. -/
def caller : TEv ι → Option Nat
  | .call t _ => some t
  | _ => none

/-- One step, and what an observer sees of it. -/
def step (S : MSys ι) (m : Multi ι) : MEv ι → Option (Multi ι × Option (Spec.HEv MOp MRes))
  | .call t dir => if m.free t then some (m.goto t (.look dir), some (.inv t (.new dir))) else none
  | .look t =>
    -- src/mmkv.rs:71-81, under the read lock; `read().unwrap()` panics when poisoned
    match m.th t with
    | .look dir =>
      if m.poisoned then some (m.goto t (.done .panicked), none)
      else if m.has dir then some (m.goto t (.done .opened), none)
      else some (m.goto t (.create dir), none)
    | _ => none
  | .create t =>
    -- src/mmkv.rs:83-111, under the write lock; a panic in it poisons the lock
    match m.th t with
    | .create dir =>
      if m.poisoned then some (m.goto t (.done .panicked), none)
      else if m.has dir then some (m.goto t (.done .opened), none)
      else if S.dirOk dir = false then some ({ m.goto t (.done .panicked) with poisoned := true }, none)
      else match Inst.openAt S.codecs (S.key dir) S.page (S.file dir) with
        | none => some ({ m.goto t (.done .panicked) with poisoned := true }, none)
        | some s => some ({ m.goto t (.done .opened) with stores := m.stores ++ [(dir, { inst := s })] }, none)
    | _ => none
  | .ret t =>
    match m.th t with
    | .done r => some (m.goto t .idle, some (.res t r))
    | _ => none
  | .on k e =>
    match m.stores[k]? with
    | none => none
    | some (dir, s) =>
      if (caller e).all (m.free ·) then
        match Threads.step S.codecs s e with
        | none => none
        | some (s', v) => some ({ m with stores := m.stores.set k (dir, s') }, v.map (lift dir))
      else none

/-- A schedule: the state it ends in and the history observed. -/
def run (S : MSys ι) : Multi ι → List (MEv ι) → Option (Multi ι × List (Spec.HEv MOp MRes))
  | m, [] => some (m, [])
  | m, e :: es =>
    match step S m e with
    | none => none
    | some (m', v) => match run S m' es with
      | none => none
      | some (m'', h) => some (m'', v.toList ++ h)

end Multi
end Mmkv
