import Verif.SpecLin
import Verif.Model.World
import Verif.Model.Encrypt
/-!
# Threads on one store

Any number of threads call `put`, `get`, `delete` and `clear_data` on handles of one directory.  A thread that makes a call first
waits for the lock of the store (`self.mmkv_impl.write()` or `.read()`, src/mmkv.rs:181-210), works while it holds it, releases it
and returns.  `std::sync::RwLock` is a dependency: a writer gets it when nobody holds it, a reader when no writer does, and any
thread that can get it may be next.
-/

namespace Mmkv
variable {ι : Type}

/-- A call on a handle.  A `get` is made at a type, given by its token. -/
inductive Op where
  | mut (m : Spec.Mutation)
  | get (key : String) (token : BitVec 32)
deriving DecidableEq, Repr

/-- A result: `put`, `delete` and `clear_data` have no value; for a `get` the bytes handed to `from_bytes`. -/
abbrev Res := Out (Option Bytes)

/-- Where a thread is: in no call on this store, waiting for the lock, holding it, or about to return. -/
inductive TSt where
  | idle
  | waiting (op : Op)
  | inside (op : Op)
  | done (r : Res)
deriving DecidableEq, Repr

/-- A store and its threads: `owner` holds the write lock, `readers` hold the read lock. -/
structure Threads (ι : Type) where
  inst : Inst ι
  th : Nat → TSt := fun _ => .idle
  owner : Option Nat := none
  readers : List Nat := []

/-- A step of thread `t` or of the background thread. -/
inductive TEv (ι : Type) where
  | call (t : Nat) (op : Op)
  | lock (t : Nat)
  | work (t : Nat) (i : ι)
  | ret (t : Nat)
  | io (o : Order)

/-- Only tokens accepted by `TypeToken::new` reach `put` (src/core/buffer.rs:119-124). -/
def Op.ok : Op → Bool
  | .mut (.put _ e) => tokenOk e.token
  | _ => true

/-- `Result<()>` as a result. -/
def resOf : Out Unit → Res
  | .ok _ => .ok none
  | .err e => .err e
  | .panic => .panic

namespace Threads

/-- Thread `t` goes to `x`. -/
def goto (s : Threads ι) (t : Nat) (x : TSt) : Threads ι := { s with th := fun u => if u = t then x else s.th u }

/-- One step, and what an observer sees of it.  `put`, `delete` and `clear_data` take the write lock (src/mmkv.rs:182, 197,
207-210), `get` the read lock (src/mmkv.rs:190); each keeps it until it is through (the guard is a temporary of the `match`, or a
local of `clear_data`).  Simplification: `from_bytes` of a `get` is not part of the result; it runs under the read lock. -/
def step (codecs : ι → Codec) (s : Threads ι) : TEv ι → Option (Threads ι × Option (Spec.HEv Op Res))
  | .call t op =>
    if s.th t = .idle ∧ op.ok = true then some (s.goto t (.waiting op), some (.inv t op)) else none
  | .lock t =>
    match s.th t with
    | .waiting (.get k tok) =>
      if s.owner = none then some ({ s.goto t (.inside (.get k tok)) with readers := t :: s.readers }, none) else none
    | .waiting (.mut m) =>
      if s.owner = none ∧ s.readers = [] then
        match Inst.step codecs s.inst (evOf m) with
        | none => none
        | some (i, none) => some ({ s.goto t (.inside (.mut m)) with inst := i, owner := some t }, none)
        | some (i, some r) => some ({ s.goto t (.done (resOf r)) with inst := i }, none)
      else none
    | _ => none
  | .work t i =>
    match s.th t with
    | .inside (.get k tok) =>
      some ({ s.goto t (.done (s.inst.getAs k tok fun bs => .ok (some bs))) with readers := s.readers.erase t }, none)
    | .inside (.mut _) =>
      match Inst.step codecs s.inst (.api i) with
      | none => none
      | some (x, none) => some ({ s with inst := x }, none)
      | some (x, some r) => some ({ s.goto t (.done (resOf r)) with inst := x, owner := none }, none)
    | _ => none
  | .ret t =>
    match s.th t with
    | .done r => some (s.goto t .idle, some (.res t r))
    | _ => none
  | .io o =>
    match Inst.step codecs s.inst (.io o) with
    | none => none
    | some (x, _) => some ({ s with inst := x }, none)

/-- A schedule: the state it ends in and the history observed. -/
def run (codecs : ι → Codec) : Threads ι → List (TEv ι) → Option (Threads ι × List (Spec.HEv Op Res))
  | s, [] => some (s, [])
  | s, e :: es =>
    match step codecs s e with
    | none => none
    | some (s', v) => match run codecs s' es with
      | none => none
      | some (s'', h) => some (s'', v.toList ++ h)

/-- A session with threads: what `new` was opened under, the schedule, and how it ended: `none`, the process died (also inside a
call); `some ios`, all calls returned and the last handle was dropped (src/mmkv.rs:43-55), the background thread making the
steps `ios` from then on.  `clean`: the drop returned. -/
structure _root_.Mmkv.TSession (ι : Type) where
  i : ι
  evs : List (TEv ι)
  close : Option (List Order)
  clean : Bool

/-- The session, whose threads have led to `s`, leaves the store `s'`. -/
def Ends (codecs : ι → Codec) (x : TSession ι) (s : Threads ι) (s' : Inst ι) : Prop :=
  match x.close with
  | none => s' = s.inst ∧ x.clean = false
  | some ios => (∀ t, s.th t = .idle) ∧ Inst.run codecs s.inst (.drop :: ios.map .io) = some (s', []) ∧ (x.clean = true → s'.closedOk)

/-- Several sessions on a directory one after the other, as `Life`, each with threads; what was observed of each. -/
inductive _root_.Mmkv.TLife (codecs : ι → Codec) (page : Nat) :
    Dir ι → List (TSession ι) → List (List (Spec.HEv Op Res) × Bool) → Dir ι → Prop
  | nil (d) : TLife codecs page d [] [] d
  | cons {d d' x xs s0 s s' h hs} (hi : ∀ j, d.idx = some j → x.i = j) (ho : Inst.openAt codecs x.i page d.file = some s0)
      (hr : Threads.run codecs { inst := s0 } x.evs = some (s, h)) (he : Ends codecs x s s')
      (rest : TLife codecs page s'.dir xs hs d') : TLife codecs page d (x :: xs) ((h, x.clean) :: hs) d'

/-- A session with threads on an encrypted directory, as `EncSession`. -/
structure _root_.Mmkv.TEncSession where
  key : String
  rand : Bytes
  evs : List (TEv (Bytes × Bytes))
  close : Option (List Order)
  clean : Bool
  half : Bool := false

/-- Several sessions with threads on an encrypted directory, as `EncLife`. -/
inductive _root_.Mmkv.TEncLife (C : Cipher) (page : Nat) :
    EncDir → List TEncSession → List (List (Spec.HEv Op Res) × Bool) → EncDir → Prop
  | nil (d) : TEncLife C page d [] [] d
  | cons {d d' x xs s0 s s' h hs} (ho : openEnc C page x.key x.rand d = some s0)
      (hr : Threads.run (encrypted C) { inst := s0 } x.evs = some (s, h))
      (he : Ends (encrypted C) ⟨s0.idx, x.evs, x.close, x.clean⟩ s s')
      (rest : TEncLife C page (encLeft s' x.half) xs hs d') : TEncLife C page d (x :: xs) ((h, x.clean) :: hs) d'

end Threads
end Mmkv
