import Mathlib.Algebra.Polynomial.Div
import Mathlib.Data.ZMod.Basic
import Verif.Spec
/-!
# The file format, independently of the code

What someone needs to know to read (or write) a data file without this library: big-endian lengths, the protobuf wire format
with the message of src/protos/kv.proto, and the checksum CRC-8/AUTOSAR as polynomial division.  Nothing here refers to the
model of the code.
-/

namespace Spec.Format
open Polynomial

/-- The number a big-endian string of bytes stands for. -/
def num : List UInt8 → Nat
  | [] => 0
  | b :: bs => b.toNat * 256 ^ bs.length + num bs

/-! ### Protobuf -/

/-- A base-128 varint: seven bits a byte, the lowest first; all bytes but the last have the top bit set. -/
inductive Varint : List UInt8 → Nat → Prop
  | last (b : UInt8) (h : b.toNat < 128) : Varint [b] b.toNat
  | more (b : UInt8) (bs : List UInt8) (v : Nat) (h : 128 ≤ b.toNat) (rest : Varint bs v) :
      Varint (b :: bs) (b.toNat - 128 + 128 * v)

/-- A varint as protobuf allows it: at most ten bytes, a number of 64 bits. -/
def Varint64 (bs : List UInt8) (v : Nat) : Prop := Varint bs v ∧ bs.length ≤ 10 ∧ v < 2 ^ 64

/-- What a field carries, by wire type. -/
inductive Payload where
  | varint (v : Nat)
  | i64 (bs : List UInt8)
  | len (bs : List UInt8)
  | i32 (bs : List UInt8)
deriving DecidableEq, Repr

/-- A field on the wire: the tag (number of the field and wire type), then the payload.  (Groups, long deprecated, are left out.) -/
inductive Field : List UInt8 → Nat → Payload → Prop
  | varint {t p : List UInt8} {n v : Nat} (hn : 0 < n) (ht : Varint64 t (8 * n + 0)) (hp : Varint64 p v) : Field (t ++ p) n (.varint v)
  | i64 {t p : List UInt8} {n : Nat} (hn : 0 < n) (ht : Varint64 t (8 * n + 1)) (hp : p.length = 8) : Field (t ++ p) n (.i64 p)
  | len {t l p : List UInt8} {n : Nat} (hn : 0 < n) (ht : Varint64 t (8 * n + 2)) (hl : Varint64 l p.length) :
      Field (t ++ (l ++ p)) n (.len p)
  | i32 {t p : List UInt8} {n : Nat} (hn : 0 < n) (ht : Varint64 t (8 * n + 5)) (hp : p.length = 4) : Field (t ++ p) n (.i32 p)

/-- A message on the wire is a sequence of fields. -/
inductive Message : List UInt8 → List (Nat × Payload) → Prop
  | nil : Message [] []
  | cons {f rest : List UInt8} {n : Nat} {p : Payload} {fs : List (Nat × Payload)} (hf : Field f n p) (hr : Message rest fs) :
      Message (f ++ rest) ((n, p) :: fs)

/-- `message KV { string key = 1; int32 type = 2; bytes value = 3; }` -/
structure Kv where
  key : String
  type : BitVec 32
  value : List UInt8
deriving DecidableEq, Repr

/-- One field of a message `KV`: later ones replace earlier ones, anything unknown is skipped, a key must be UTF-8. -/
def merge (m : Kv) : Nat × Payload → Option Kv
  | (1, .len p) => (String.fromUTF8? ⟨p.toArray⟩).map fun s => { m with key := s }
  | (2, .varint v) => some { m with type := BitVec.ofNat 32 v }
  | (3, .len p) => some { m with value := p }
  | _ => some m

/-- The fields of a message `KV`, merged one after the other. -/
def mergeAll (m : Kv) : List (Nat × Payload) → Option Kv
  | [] => some m
  | f :: fs => (merge m f).bind fun m => mergeAll m fs

/-- These bytes are the message `kv` (fields that are absent have their default). -/
def IsKv (bs : List UInt8) (kv : Kv) : Prop := ∃ fs, Message bs fs ∧ mergeAll ⟨"", 0, []⟩ fs = some kv

/-! ### The checksum -/

/-- A byte as a polynomial over the field of two elements: bit `i` is the coefficient of `X ^ i`. -/
noncomputable def bytePoly (b : UInt8) : (ZMod 2)[X] := ∑ i ∈ Finset.range 8, C (if b.toNat.testBit i then 1 else 0) * X ^ i

/-- A string of bytes as a polynomial, the first byte highest. -/
noncomputable def poly : List UInt8 → (ZMod 2)[X]
  | [] => 0
  | b :: bs => bytePoly b * X ^ (8 * bs.length) + poly bs

/-- The generator of CRC-8/AUTOSAR, 0x2F. -/
noncomputable def generator : (ZMod 2)[X] := X ^ 8 + X ^ 5 + X ^ 3 + X ^ 2 + X + 1

/-- CRC-8/AUTOSAR: the remainder of the message (times `X ^ 8`), with initial value FF; the result is inverted. -/
def IsCrc (bs : List UInt8) (sum : UInt8) : Prop :=
  bytePoly (sum ^^^ 0xFF) = (bytePoly 0xFF * X ^ (8 * bs.length) + poly bs * X ^ 8) %ₘ generator

/-! ### Records and files -/

/-- A record: four bytes of length, the message, its checksum. -/
def Record (bs : List UInt8) (kv : Kv) : Prop :=
  ∃ (len msg : List UInt8) (sum : UInt8), bs = len ++ (msg ++ [sum]) ∧ len.length = 4 ∧ num len = msg.length + 1 ∧ IsKv msg kv ∧ IsCrc msg sum

/-- Records one after the other. -/
inductive Records : List UInt8 → List Kv → Prop
  | nil : Records [] []
  | cons {r rest : List UInt8} {kv : Kv} {kvs : List Kv} (hr : Record r kv) (hs : Records rest kvs) : Records (r ++ rest) (kv :: kvs)

/-- A data file: eight bytes giving the length of the content, the content, unused space. -/
def File (bs : List UInt8) (kvs : List Kv) : Prop :=
  ∃ (hdr content unused : List UInt8), bs = hdr ++ (content ++ unused) ∧ hdr.length = 8 ∧ num hdr = content.length ∧ Records content kvs

/-- Encrypted records one after the other, from record number `pos` on: four bytes of length, then the message sealed for this
position (what sealing means is up to the cipher). -/
inductive Sealed (opened : Nat → List UInt8 → Option (List UInt8)) : Nat → List UInt8 → List Kv → Prop
  | nil (pos : Nat) : Sealed opened pos [] []
  | cons {pos : Nat} {len box rest msg : List UInt8} {kv : Kv} {kvs : List Kv} (hl : len.length = 4) (hn : num len = box.length)
      (hu : opened pos box = some msg) (hk : IsKv msg kv) (hs : Sealed opened (pos + 1) rest kvs) :
      Sealed opened pos (len ++ (box ++ rest)) (kv :: kvs)

/-- An encrypted data file; records are numbered from 0. -/
def SealedFile (opened : Nat → List UInt8 → Option (List UInt8)) (bs : List UInt8) (kvs : List Kv) : Prop :=
  ∃ (hdr content unused : List UInt8), bs = hdr ++ (content ++ unused) ∧ hdr.length = 8 ∧ num hdr = content.length ∧
    Sealed opened 0 content kvs

/-- What a sequence of records stands for: type 100 is a deletion, everything else a value. -/
def mutation (kv : Kv) : Mutation := if kv.type = 100 then .delete kv.key else .put kv.key ⟨kv.type, kv.value⟩

/-- The store a data file stands for: its records, first one first. -/
def contents (kvs : List Kv) : Store := Store.empty.run (kvs.map mutation)

end Spec.Format
