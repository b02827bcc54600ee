import Verif.Model.Encrypt
/-!
# What `new` and `clear_data` do to the directory, system call by system call

For the death of the process inside them, and for system calls that fail: src/mmkv.rs:97-104 and 206-220,
src/core/config.rs:15-34, src/core/encrypt.rs:34-103, src/core/mmkv_impl.rs:98-114.  Creating, resizing, removing a file are
one system call each; the eleven bytes of the nonce may be written in several.
-/

namespace Mmkv

/-- The two files of a directory; `none`: missing. -/
structure DirDisk where
  data : Option Bytes
  nonce : Option Bytes
deriving DecidableEq, Repr

/-- As `EncDir`, where a missing and an empty data file are the same. -/
def DirDisk.enc (d : DirDisk) : EncDir := ⟨d.data.getD [], d.nonce⟩

/-- `Config::new`, src/core/config.rs:15-34: the states the directory goes through, the present one first.  `create(true)`
makes an empty file; an empty file gets one page of zeros.  The rest of `Config::new` (`metadata`, `sync_all`) and the
mapping and reading in `MmkvImpl::new` (src/core/mmkv_impl.rs:37-47) do not change the directory. -/
def configStates (page : Nat) (d : DirDisk) : List DirDisk :=
  d :: ((if d.data = none then [{ d with data := some [] }] else []) ++
    (if (d.data.getD []).length = 0 then [{ d with data := some (zeros page) }] else []))

/-- `StreamWrapper::new`, src/core/encrypt.rs:65-81: the nonce file is created (or truncated), then written. -/
def newNonceStates (rand : Bytes) (d : DirDisk) : List DirDisk :=
  (List.range (rand.length + 1)).map fun k => { d with nonce := some (rand.take k) }

/-- `StreamWrapper::init`, src/core/encrypt.rs:57-63 and 83-103: the states after the present one.  `readOk = false`: reading
the nonce file fails, which removes it just as a wrong length does. -/
def nonceStates (readOk : Bool) (rand : Bytes) (d : DirDisk) : List DirDisk :=
  match d.nonce with
  | none => newNonceStates rand d
  | some n => if readOk && n.length = nonceLen then [] else { d with nonce := none } :: newNonceStates rand { d with nonce := none }

/-- `new` without the `encryption` feature. -/
def openStates (page : Nat) (d : DirDisk) : List DirDisk := configStates page d

/-- `new` with the `encryption` feature: a malformed key panics (src/core/encrypt.rs:35-38) after the data file was created. -/
def encOpenStates (page : Nat) (key : String) (readOk : Bool) (rand : Bytes) (d : DirDisk) : List DirDisk :=
  configStates page d ++
    match decodeKey key with
    | none => []
    | some _ => nonceStates readOk rand { d with data := some (configNew page (d.data.getD [])) }

/-- The removal job of `clear_data`, src/core/mmkv_impl.rs:107-110: the data file, then the nonce file. -/
def removeStates (d : DirDisk) : List DirDisk := [d, { d with data := none }, { data := none, nonce := none }]

/-- Opens that did not get to their end: each was killed or failed in one of the states it goes through, or got through
without a call being made; each with its own key (right, wrong or malformed) and random bytes.  The last list collects
the random bytes. -/
inductive CutOpens (page : Nat) : DirDisk → List Bytes → DirDisk → Prop
  | none (d) : CutOpens page d [] d
  | cut {d d1 d2 key rand rands} (hr : rand.length = nonceLen) (h1 : d1 ∈ encOpenStates page key true rand d)
      (rest : CutOpens page d1 rands d2) : CutOpens page d (rand :: rands) d2

/-- A system call of `new` that fails, and (for the nonce file) how much had been written. -/
inductive Fault where
  | openData | setLen | syncData | readNonce | openNonce | writeNonce (k : Nat) | mmap
deriving DecidableEq, Repr

/-- What `new` (with encryption and a well-formed key) leaves when this call fails.  All of these panic (`unwrap`, `expect`:
src/core/config.rs:22-27, src/core/encrypt.rs:74-78, 84, src/core/memory_map.rs:18-39) except `readNonce`, after which
`new` goes on with a new nonce (src/core/encrypt.rs:86-97). -/
def Fault.left (page : Nat) (rand : Bytes) (d : DirDisk) : Fault → DirDisk
  | .openData => d
  | .setLen => { d with data := some (d.data.getD []) }
  | .syncData => { d with data := some (configNew page (d.data.getD [])) }
  | .openNonce =>
    let d := { d with data := some (configNew page (d.data.getD [])) }
    match d.nonce with
    | none => d
    | some n => if n.length = nonceLen then d else { d with nonce := none }
  | .writeNonce k =>
    let d := { d with data := some (configNew page (d.data.getD [])) }
    match d.nonce with
    | none => { d with nonce := some (rand.take k) }
    | some n => if n.length = nonceLen then d else { d with nonce := some (rand.take k) }
  | .readNonce => ⟨some (configNew page (d.data.getD [])), some rand⟩
  | .mmap => ⟨some (configNew page (d.data.getD [])), some (initNonce d.nonce rand)⟩

/-- The background thread runs the removal job and `fs::remove_file` fails; its result is dropped
(src/core/config.rs:55-57). -/
def Inst.ioRemoveFails {ι : Type} (s : Inst ι) : Option (Inst ι) :=
  match s.lp.io, s.lp.buf with
  | .run, .remove :: rest => some { s with lp := { s.lp with buf := rest, ran := s.lp.ran ++ [(id, .remove)] } }
  | _, _ => none

end Mmkv
