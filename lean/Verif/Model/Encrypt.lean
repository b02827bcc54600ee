import Verif.Model.Session
/-!
# Keys, nonce files and encrypted directories: src/core/encrypt.rs:33-103
-/

namespace Mmkv

/-- The value of a hexadecimal digit; `none` is `FromHexError::InvalidHexCharacter` of the crate `hex`. -/
def hexDigit (b : UInt8) : Option Nat :=
  if 48 ≤ b.toNat ∧ b.toNat ≤ 57 then some (b.toNat - 48)
  else if 65 ≤ b.toNat ∧ b.toNat ≤ 70 then some (b.toNat - 55)
  else if 97 ≤ b.toNat ∧ b.toNat ≤ 102 then some (b.toNat - 87)
  else none

/-- `hex::decode` of the crate `hex`: pairs of digits; an odd number of bytes or any other byte is an error. -/
def hexDecode : Bytes → Option Bytes
  | [] => some []
  | [_] => none
  | a :: b :: rest =>
    match hexDigit a, hexDigit b, hexDecode rest with
    | some x, some y, some r => some (UInt8.ofNat (16 * x + y) :: r)
    | _, _, _ => none

/-- The key of `Encryptor::init`, src/core/encrypt.rs:35 and 38: `hex::decode(key).unwrap()` and
`try_into().unwrap()` to `[u8; 16]`; `none` is a panic. -/
def decodeKey (key : String) : Option Bytes :=
  match hexDecode (strBytes key) with
  | none => none
  | some k => if k.length = 16 then some k else none

/-- `NONCE_LEN`, src/core/encrypt.rs:19. -/
def nonceLen : Nat := 11

/-- The nonce `StreamWrapper::init` ends up with, src/core/encrypt.rs:56-103, given the content of the nonce file
(`none`: missing) and the bytes `OsRng` would yield: the content if it has the right length, else the random bytes,
which then are what the nonce file holds.  Simplification: reading, removing and writing the nonce file succeed. -/
def initNonce (nonceFile : Option Bytes) (rand : Bytes) : Bytes :=
  match nonceFile with
  | none => rand
  | some n => if n.length = nonceLen then n else rand

/-- `Encryptor::init`, src/core/encrypt.rs:34-43: key and nonce in use; `none` is a panic.  Afterwards the nonce file
holds the nonce. -/
def encryptorInit (key : String) (nonceFile : Option Bytes) (rand : Bytes) : Option (Bytes × Bytes) :=
  (decodeKey key).map fun k => (k, initNonce nonceFile rand)

/-- The codec under a key and a nonce. -/
def encrypted (C : Cipher) : Bytes × Bytes → Codec := fun i => aeadCodec ⟨C, i.1, i.2⟩

/-- What an encrypted directory holds between two sessions: the data file (`[]`: missing) and the nonce file
(`mini_mmkv.meta`, src/core/encrypt.rs:45-52; `none`: missing). -/
structure EncDir where
  file : Bytes
  nonceFile : Option Bytes
deriving DecidableEq, Repr

/-- A directory nobody has used yet. -/
def EncDir.fresh : EncDir := ⟨[], none⟩

/-- `MmkvImpl::new` with the `encryption` feature, src/core/mmkv_impl.rs:28-63: `none` is a panic. -/
def openEnc (C : Cipher) (page : Nat) (key : String) (rand : Bytes) (d : EncDir) : Option (Inst (Bytes × Bytes)) :=
  match encryptorInit key d.nonceFile rand with
  | none => none
  | some i => Inst.openAt (encrypted C) i page d.file

/-- A session of an encrypted store: the key given to `new`, the random bytes it would draw, what happens, whether it
ends by a clean close, and - if the process dies while `clear_data` is removing the files - whether that happens
between the two removals (src/core/mmkv_impl.rs:107-110). -/
structure EncSession where
  key : String
  rand : Bytes
  evs : List (Ev (Bytes × Bytes))
  clean : Bool
  half : Bool := false

/-- What an encrypted store leaves behind if the process ends now. -/
def encLeft (s : Inst (Bytes × Bytes)) (half : Bool) : EncDir :=
  ⟨s.disk, if s.lp.cb.removed && !half then none else some s.idx.2⟩

/-- Several sessions on an encrypted directory, one after the other, as `Life`. -/
inductive EncLife (C : Cipher) (page : Nat) : EncDir → List EncSession → List (List (Out Unit)) → EncDir → Prop
  | nil (d) : EncLife C page d [] [] d
  | cons {d d' x xs s s' rs rss} (ho : openEnc C page x.key x.rand d = some s)
      (hr : Inst.run (encrypted C) s x.evs = some (s', rs)) (hc : x.clean = true → s'.closedOk)
      (rest : EncLife C page (encLeft s' x.half) xs rss d') :
      EncLife C page d (x :: xs) (rs :: rss) d'

end Mmkv
