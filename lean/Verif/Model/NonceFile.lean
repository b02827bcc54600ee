import Verif.Model.Encrypt
/-!
# The nonce file of an encrypted store, step by step

`Model/Instance` leaves open which nonce a store re-created by `clear_data` uses, and `Model/Encrypt` what is in the nonce file
only between sessions.  Here the nonce file is part of the state: `StreamWrapper::init` reads or creates it
(src/core/encrypt.rs:56-103), the removal job of `clear_data` removes it after the data file (src/core/mmkv_impl.rs:107-110).
-/

namespace Mmkv

/-- An encrypted store in its directory: the store, the bytes of the key its handle was made with (src/mmkv.rs:38), and the
content of the nonce file (`none`: missing). -/
structure EncProc where
  inst : Inst (Bytes × Bytes)
  key : Bytes
  nonceFile : Option Bytes

namespace EncProc

/-- `MMKV::new` with a key string, src/core/mmkv_impl.rs:28-63 with src/core/encrypt.rs:34-103; `rand` is what `OsRng` would
yield; `none` is a panic. -/
def openDir (C : Cipher) (page : Nat) (key : String) (rand : Bytes) (d : EncDir) : Option EncProc :=
  match decodeKey key, openEnc C page key rand d with
  | some k, some s => some ⟨s, k, some (initNonce d.nonceFile rand)⟩
  | _, _ => none

/-- The event of the store, given the nonce file: `MmkvImpl::new` in `clear_data` (src/mmkv.rs:212-219) takes the handle's key
and the nonce `StreamWrapper::init` ends up with. -/
def event (s : EncProc) : Ev Bytes → Ev (Bytes × Bytes)
  | .put k t bs => .put k t bs
  | .delete k => .delete k
  | .clear => .clear
  | .api rand => .api (s.key, initNonce s.nonceFile rand)
  | .drop => .drop
  | .io o => .io o

/-- One event.  The parameter of `.api` is what `OsRng` would yield should the call need a nonce.  The removal job of the
background thread removes the nonce file right after the data file (src/core/mmkv_impl.rs:108-110); the re-creation of the
store leaves a nonce file (src/core/encrypt.rs:56-103). -/
def step (C : Cipher) (s : EncProc) (e : Ev Bytes) : Option (EncProc × Option (Out Unit)) :=
  match Inst.step (encrypted C) s.inst (s.event e) with
  | none => none
  | some (i, r) =>
    let nf := match e with
      | .io _ => if s.inst.lp.cb.removed = false ∧ i.lp.cb.removed = true then none else s.nonceFile
      | .api rand => if s.inst.phase = .clrOpen then some (initNonce s.nonceFile rand) else s.nonceFile
      | _ => s.nonceFile
    some (⟨i, s.key, nf⟩, r)

/-- A history. -/
def run (C : Cipher) : EncProc → List (Ev Bytes) → Option (EncProc × List (Out Unit))
  | s, [] => some (s, [])
  | s, e :: es =>
    match step C s e with
    | none => none
    | some (s', r) => match run C s' es with
      | none => none
      | some (s'', rs) => some (s'', r.toList ++ rs)

/-- The nonce in use. -/
def nonce (s : EncProc) : Bytes := s.inst.idx.2

/-- The directory as it is now, should the process end. -/
def left (s : EncProc) : EncDir := ⟨s.inst.disk, s.nonceFile⟩

/-- The directory if the process is killed inside the removal job, between its two removals (src/core/mmkv_impl.rs:108-110):
`s` is the state before that step of the background thread. -/
def leftHalf (s : EncProc) : EncDir := ⟨[], s.nonceFile⟩

end EncProc
end Mmkv
