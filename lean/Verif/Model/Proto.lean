import Verif.Model.Values
/-!
# The protobuf encoding of `KV`

src/protos/kv.proto (three proto3 fields: `string key = 1; int32 type = 2; bytes value = 3`), as written by
`Buffer::to_bytes` and read by `Buffer::from_encoded_bytes`, src/core/buffer.rs:50-57, through the code
generated by `protobuf-codegen` 3.7.2 (build.rs).  The generated code and the rust-protobuf runtime are
dependencies, not part of /repo: this file is the trusted description of what they do, namely the
proto3 wire format: default-valued fields are not written; fields are written in field order; a negative
`int32` is a ten-byte varint; the reader accepts fields in any order and repetition (last one wins),
skips unknown fields (simplification: instead of keeping them; groups are rejected), and fails on
truncated input, over-long varints, field number 0 and invalid UTF-8 in `key`.
-/

namespace Mmkv

/-- Varint of a number (little-endian groups of 7 bits). `fuel` bounds the number of bytes; ten suffice
for 64 bits. -/
def varintFuel : (fuel : Nat) → Nat → Bytes
  | 0, _ => []
  | fuel + 1, v => if v < 128 then [UInt8.ofNat v] else UInt8.ofNat (v % 128 + 128) :: varintFuel fuel (v / 128)

/-- Varint of a `u64`. -/
def varint (v : Nat) : Bytes := varintFuel 10 v

/-- Reads a varint of at most `fuel` bytes; returns value and rest. -/
def readVarintFuel : (fuel : Nat) → Bytes → Option (Nat × Bytes)
  | 0, _ => none
  | _ + 1, [] => none
  | fuel + 1, b :: bs =>
    if b.toNat < 128 then some (b.toNat, bs)
    else match readVarintFuel fuel bs with
      | some (v, rest) => some (b.toNat - 128 + 128 * v, rest)
      | none => none

/-- Reads a `u64` varint (at most ten bytes, value below 2^64). -/
def readVarint (bs : Bytes) : Option (Nat × Bytes) :=
  match readVarintFuel 10 bs with
  | some (v, rest) => if v < 2 ^ 64 then some (v, rest) else none
  | none => none

/-- An `int32` field value: sign-extended to 64 bits, then varint. -/
def int32Varint (t : BitVec 32) : Bytes := varint (t.signExtend 64).toNat

/-- Length-delimited payload. -/
def lenDelim (bs : Bytes) : Bytes := varint bs.length ++ bs

/-- Reads a length-delimited payload; returns payload and rest. -/
def readLenDelim (bs : Bytes) : Option (Bytes × Bytes) :=
  match readVarint bs with
  | some (n, rest) => if n ≤ rest.length then some (rest.take n, rest.drop n) else none
  | none => none

/-- `Message::write_to_bytes` of `KV` (src/core/buffer.rs:55-57; tags 10, 16, 26). -/
def kvToBytes (b : Buffer) : Bytes :=
  (if b.key = "" then [] else (10 : UInt8) :: lenDelim (strBytes b.key)) ++
  (if b.type = 0 then [] else (16 : UInt8) :: int32Varint b.type) ++
  (if b.value = [] then [] else (26 : UInt8) :: lenDelim b.value)

/-- Skips the payload of an unknown field by wire type; `none` is a parse error. -/
def skipUnknown (tag : Nat) (bs : Bytes) : Option Bytes :=
  if tag / 8 = 0 then none
  else if tag % 8 = 0 then (readVarint bs).map (·.2)
  else if tag % 8 = 1 then (if 8 ≤ bs.length then some (bs.drop 8) else none)
  else if tag % 8 = 2 then (readLenDelim bs).map (·.2)
  else if tag % 8 = 5 then (if 4 ≤ bs.length then some (bs.drop 4) else none)
  else none

/-- One field: tag and payload, merged into the message. -/
def kvField (acc : Buffer) (bs : Bytes) : Option (Buffer × Bytes) :=
  match readVarint bs with
  | none => none
  | some (tag, rest) =>
    if tag = 10 then
      match readLenDelim rest with
      | none => none
      | some (p, rest') => (strOfBytes p).map fun s => ({ acc with key := s }, rest')
    else if tag = 16 then
      (readVarint rest).map fun (v, rest') => ({ acc with type := BitVec.ofNat 32 v }, rest')
    else if tag = 26 then
      (readLenDelim rest).map fun (p, rest') => ({ acc with value := p }, rest')
    else (skipUnknown tag rest).map fun rest' => (acc, rest')

/-- The field loop `while let Some(tag) = is.read_raw_tag_or_eof()?`; each field consumes at least one
byte, so the input length is enough fuel. -/
def kvLoop : (fuel : Nat) → Buffer → Bytes → Option Buffer
  | _, acc, [] => some acc
  | 0, _, _ :: _ => none
  | fuel + 1, acc, b :: bs =>
    match kvField acc (b :: bs) with
    | some (acc', rest) => kvLoop fuel acc' rest
    | none => none

/-- `KV::parse_from_bytes` (src/core/buffer.rs:50-53); `none` is `Err(DecodeFailed)`. -/
def kvFromBytes (bs : Bytes) : Option Buffer := kvLoop bs.length ⟨"", 0, []⟩ bs

end Mmkv
