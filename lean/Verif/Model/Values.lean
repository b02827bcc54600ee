import Verif.Model.Basic
/-!
# Typed values: src/core/buffer.rs

Type tokens, `ToBytes`, `FromBytes`, `Buffer`.
-/

namespace Mmkv

/-- The eleven built-in value types, `InnerTypes` src/core/buffer.rs:84-98 (without `Deleted`). -/
inductive Ty where
  | i32 | str | bool | i64 | f32 | f64 | byteArray | i32Array | i64Array | f32Array | f64Array
deriving DecidableEq, Repr

/-- Values of each type. Numbers are their bit patterns (`f32`/`f64` only ever go through
`to_be_bytes`/`from_be_bytes`, src/core/buffer.rs:223-227 and 301-311). -/
def Ty.Val : Ty → Type
  | .i32 => BitVec 32
  | .str => String
  | .bool => Bool
  | .i64 => BitVec 64
  | .f32 => BitVec 32
  | .f64 => BitVec 64
  | .byteArray => Bytes
  | .i32Array => List (BitVec 32)
  | .i64Array => List (BitVec 64)
  | .f32Array => List (BitVec 32)
  | .f64Array => List (BitVec 64)

/-- `InnerTypes::value`, src/core/buffer.rs:84-103, as used by every `ProvideTypeToken` impl
(161-171 strings, 185-189 bool, 198-208 byte arrays, 232-237 numbers, 265-270 arrays). -/
def Ty.token : Ty → BitVec 32
  | .i32 => 0
  | .str => 1
  | .bool => 2
  | .i64 => 3
  | .f32 => 4
  | .f64 => 5
  | .byteArray => 6
  | .i32Array => 7
  | .i64Array => 8
  | .f32Array => 9
  | .f64Array => 10

/-- `InnerTypes::Deleted`, src/core/buffer.rs:97. -/
def deletedToken : BitVec 32 := 100

/-- `InnerTypes::reserved`, src/core/buffer.rs:105-107: `(0..=100).contains(&value)` on `i32`. -/
def reserved (token : BitVec 32) : Bool := decide (0 ≤ token.toInt ∧ token.toInt ≤ 100)

/-- `TypeToken::new`, src/core/buffer.rs:119-124: panics on a reserved token. -/
def typeTokenNew (token : BitVec 32) : Out (BitVec 32) :=
  if reserved token then .panic else .ok token

/-- `to_be_bytes` of a 32-bit number, src/core/buffer.rs:223-227. -/
def num32ToBytes (x : BitVec 32) : Bytes := beBytes 4 x.toNat
/-- `to_be_bytes` of a 64-bit number, src/core/buffer.rs:223-227. -/
def num64ToBytes (x : BitVec 64) : Bytes := beBytes 8 x.toNat

/-- `ToBytes for bool`, src/core/buffer.rs:191-196. -/
def boolToBytes (v : Bool) : Bytes := [if v then 1 else 0]

/-- `ToBytes` of a numeric slice: concatenation, src/core/buffer.rs:252-260. -/
def arrToBytes {α : Type} (f : α → Bytes) : List α → Bytes
  | [] => []
  | x :: xs => f x ++ arrToBytes f xs

/-- `ToBytes` of the built-in types: src/core/buffer.rs:173-183 (strings), 191-196 (bool),
210-214 (bytes), 223-227 (numbers), 252-260 (numeric arrays). -/
def toBytes : (t : Ty) → t.Val → Bytes
  | .i32, v => num32ToBytes v
  | .str, v => strBytes v
  | .bool, v => boolToBytes v
  | .i64, v => num64ToBytes v
  | .f32, v => num32ToBytes v
  | .f64, v => num64ToBytes v
  | .byteArray, v => v
  | .i32Array, v => arrToBytes num32ToBytes v
  | .i64Array, v => arrToBytes num64ToBytes v
  | .f32Array, v => arrToBytes num32ToBytes v
  | .f64Array, v => arrToBytes num64ToBytes v

/-- `FromBytes` of a number of `n` bytes, src/core/buffer.rs:301-311: `bytes[0..n]` panics when there
are fewer than `n` bytes; extra bytes are ignored; the `Err(DataInvalid)` arm is unreachable. -/
def numFromBytes (n w : Nat) (bs : Bytes) : Out (BitVec w) :=
  if bs.length < n then .panic else .ok (BitVec.ofNat w (beVal (bs.take n)))

/-- The loop `for i in 0..len`, src/core/buffer.rs:334-340, over `k` remaining items. -/
def arrLoop (n w : Nat) : (k : Nat) → Bytes → List (BitVec w)
  | 0, _ => []
  | k + 1, bs => BitVec.ofNat w (beVal (bs.take n)) :: arrLoop n w k (bs.drop n)

/-- `FromBytes` of a numeric array of item size `n`, src/core/buffer.rs:326-343. -/
def arrFromBytes (n w : Nat) (bs : Bytes) : Out (List (BitVec w)) :=
  if bs.length % n ≠ 0 then .err .dataInvalid
  else .ok (arrLoop n w (bs.length / n) bs)

/-- `FromBytes for String`, src/core/buffer.rs:280-284. -/
def strFromBytes (bs : Bytes) : Out String :=
  match strOfBytes bs with
  | some s => .ok s
  | none => .err .dataInvalid

/-- `FromBytes for bool`, src/core/buffer.rs:286-290: `bytes[0]` panics on an empty slice. -/
def boolFromBytes : Bytes → Out Bool
  | [] => .panic
  | b :: _ => .ok (b == 1)

/-- `FromBytes` of the built-in types, src/core/buffer.rs:280-353. -/
def fromBytes : (t : Ty) → Bytes → Out t.Val
  | .i32, bs => numFromBytes 4 32 bs
  | .str, bs => strFromBytes bs
  | .bool, bs => boolFromBytes bs
  | .i64, bs => numFromBytes 8 64 bs
  | .f32, bs => numFromBytes 4 32 bs
  | .f64, bs => numFromBytes 8 64 bs
  | .byteArray, bs => .ok bs
  | .i32Array, bs => arrFromBytes 4 32 bs
  | .i64Array, bs => arrFromBytes 8 64 bs
  | .f32Array, bs => arrFromBytes 4 32 bs
  | .f64Array, bs => arrFromBytes 8 64 bs

/-- `Buffer`, i.e. the protobuf message `KV`, src/core/buffer.rs:11-13 and src/protos/kv.proto.
Simplification: unknown protobuf fields, which rust-protobuf would carry along, are dropped. -/
structure Buffer where
  key : String
  type : BitVec 32
  value : Bytes
deriving DecidableEq, Repr

namespace Buffer

/-- `Buffer::new` for a user type given by its token and its `to_bytes` result,
src/core/buffer.rs:29-39. -/
def ofRaw (key : String) (token : BitVec 32) (value : Bytes) : Buffer := ⟨key, token, value⟩

/-- `Buffer::new` for a built-in type, src/core/buffer.rs:37-39. -/
def new (key : String) (t : Ty) (v : t.Val) : Buffer := ofRaw key t.token (toBytes t v)

/-- `Buffer::deleted_buffer`, src/core/buffer.rs:46-48. -/
def deleted (key : String) : Buffer := ⟨key, deletedToken, []⟩

/-- `Buffer::is_deleting`, src/core/buffer.rs:68-70. -/
def isDeleting (b : Buffer) : Bool := b.type == deletedToken

/-- `Buffer::check_buffer_type`, src/core/buffer.rs:72-81. -/
def checkType (b : Buffer) (token : BitVec 32) : Option Error :=
  if b.isDeleting then some .keyNotFound
  else if token = b.type then none
  else some .typeMissMatch

/-- `Buffer::parse` at an arbitrary type given by token and `from_bytes`, src/core/buffer.rs:41-44. -/
def parseAs {α : Type} (b : Buffer) (token : BitVec 32) (fromB : Bytes → Out α) : Out α :=
  match b.checkType token with
  | some e => .err e
  | none => fromB b.value

/-- `Buffer::parse` at a built-in type. -/
def parse (b : Buffer) (t : Ty) : Out t.Val := b.parseAs t.token (fromBytes t)

end Buffer
end Mmkv
