import Verif.Model.Proto
/-!
# Encoder / Decoder: src/core/buffer.rs:15-26, src/core/crc.rs, src/core/encrypt.rs
-/

namespace Mmkv

/-- `crate::Result<DecodeResult>` (src/core/buffer.rs:19-26), plus panic. `ok buffer len`. -/
inductive DecRes where
  | ok (buffer : Option Buffer) (len : Nat)
  | err (e : Error)
  | panic
deriving DecidableEq, Repr

/-- A `Box<dyn Encoder>` / `Box<dyn Decoder>` pair (src/core/buffer.rs:15-26).  `enc b pos = none` is an
`Err`, on which every caller panics through `unwrap` (src/core/writer.rs:40-43 and 76). -/
structure Codec where
  enc : Buffer → (position : Nat) → Option Bytes
  dec : Bytes → (position : Nat) → DecRes

/-! ### CRC-8/AUTOSAR (crate `crc`, `CRC_8_AUTOSAR`: width 8, poly 0x2f, init 0xff, not reflected,
xorout 0xff), used by src/core/crc.rs:4-9 -/

/-- One bit step: shift left, subtract the polynomial on carry. -/
def crcBit (c : UInt8) : UInt8 := if c &&& 0x80 ≠ 0 then (c <<< 1) ^^^ 0x2f else c <<< 1

/-- Eight bit steps: the table entry of the byte-wise algorithm. -/
def crcTable (c : UInt8) : UInt8 := crcBit (crcBit (crcBit (crcBit (crcBit (crcBit (crcBit (crcBit c)))))))

/-- Processing one byte. -/
def crcStep (c b : UInt8) : UInt8 := crcTable (c ^^^ b)

/-- `CRC8.checksum`, src/core/crc.rs:16 and 32. -/
def crc8 (bs : Bytes) : UInt8 := bs.foldl crcStep 0xff ^^^ 0xff

/-- `CrcEncoderDecoder::encode_to_bytes`, src/core/crc.rs:14-22.  `bytes_to_write.len() as u32 + 1` is
modelled as the low 32 bits of `len + 1` (the release build; a debug build panics in the one case
`len % 2^32 = 2^32 - 1`). -/
def crcEnc (b : Buffer) (_position : Nat) : Option Bytes :=
  let body := kvToBytes b
  some (beBytes 4 (body.length + 1) ++ body ++ [crc8 body])

/-- `CrcEncoderDecoder::decode_bytes`, src/core/crc.rs:26-48.  `data[0..4]`,
`data[4..(4 + item_len - 1)]` and `data[4 + item_len - 1]` panic out of range; in particular
`item_len = 0` gives the range `4..3`, which panics.  `offset as u32 + item_len` (line 30) overflowing 32 bits
is modelled as the panic of a debug build (a release build wraps, and then loses the framing). -/
def crcDec (data : Bytes) (_position : Nat) : DecRes :=
  if data.length < 4 then .panic
  else
    let itemLen := beVal (data.take 4)
    if itemLen = 0 then .panic
    else if data.length < 4 + itemLen then .panic
    else if 2 ^ 32 ≤ 4 + itemLen then .panic
    else
      let body := (data.drop 4).take (itemLen - 1)
      let sum := data.getD (4 + itemLen - 1) 0
      let buffer := if crc8 body = sum then kvFromBytes body else none
      .ok buffer (4 + itemLen)

/-- The default codec: src/core/mmkv_impl.rs:34-35 and 39-40. -/
def crcCodec : Codec := ⟨crcEnc, crcDec⟩

/-! ### Encryption: src/core/encrypt.rs -/

/-- What src/core/encrypt.rs needs from `StreamBE32<Eax<Aes128, U8>>`: encryption and decryption under a
16-byte key, an 11-byte nonce and a 32-bit counter (src/core/encrypt.rs:21-22, 77-78, 98-102, 110-113,
123-126).  The cipher itself (crates `aes`, `eax`, `aead::stream`) is a dependency and abstract here; only
the two laws below are assumed of it. -/
structure Cipher where
  encrypt : (key nonce : Bytes) → (counter : Nat) → Bytes → Bytes
  decrypt : (key nonce : Bytes) → (counter : Nat) → Bytes → Option Bytes
  /-- decrypting under the same key, nonce and counter gives the plaintext back -/
  decrypt_encrypt : ∀ k n c p, decrypt k n c (encrypt k n c p) = some p
  /-- the ciphertext is eight bytes (the tag, `Eax<Aes128, U8>`) longer than the plaintext -/
  encrypt_length : ∀ k n c p, (encrypt k n c p).length = p.length + 8

/-- `StreamWrapper`, src/core/encrypt.rs:30-31: a cipher with its key and nonce. -/
structure Stream where
  cipher : Cipher
  key : Bytes
  nonce : Bytes

/-- `Stream::COUNTER_MAX` of `StreamBE32`: `u32::MAX`, src/core/encrypt.rs:106 and 119. -/
def counterMax : Nat := 2 ^ 32 - 1

/-- `StreamWrapper::encrypt`, src/core/encrypt.rs:105-116; `none` is `Err(EncryptFailed)`. -/
def Stream.encrypt (S : Stream) (bs : Bytes) (position : Nat) : Option Bytes :=
  if position = counterMax then none else some (S.cipher.encrypt S.key S.nonce position bs)

/-- `StreamWrapper::decrypt`, src/core/encrypt.rs:118-129; `none` is `Err(DecryptFailed)`. -/
def Stream.decrypt (S : Stream) (bs : Bytes) (position : Nat) : Option Bytes :=
  if position = counterMax then none else S.cipher.decrypt S.key S.nonce position bs

/-- `Encryptor::encode_to_bytes`, src/core/encrypt.rs:133-140. -/
def aeadEnc (S : Stream) (b : Buffer) (position : Nat) : Option Bytes :=
  match S.encrypt (kvToBytes b) position with
  | none => none
  | some crypt => some (beBytes 4 crypt.length ++ crypt)

/-- `Encryptor::decode_bytes`, src/core/encrypt.rs:144-165: out-of-range slices panic; the `u32` overflow of
line 149 as in `crcDec`. -/
def aeadDec (S : Stream) (data : Bytes) (position : Nat) : DecRes :=
  if data.length < 4 then .panic
  else
    let itemLen := beVal (data.take 4)
    if data.length < 4 + itemLen then .panic
    else if 2 ^ 32 ≤ 4 + itemLen then .panic
    else
      let body := (data.drop 4).take itemLen
      let buffer := match S.decrypt body position with
        | some plain => kvFromBytes plain
        | none => none
      .ok buffer (4 + itemLen)

/-- The codec of the `encryption` feature: src/core/mmkv_impl.rs:30-38. -/
def aeadCodec (S : Stream) : Codec := ⟨aeadEnc S, aeadDec S⟩

end Mmkv
