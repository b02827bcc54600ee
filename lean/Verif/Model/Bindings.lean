import Verif.Model.Ffi
import Verif.Model.Logger
/-!
# The bindings: Swift (ios/MMKV/Sources/MMKV) over the C interface, Kotlin (android/library) over JNI (src/jni/mod.rs)

Only what the bindings add to the calls of the library is modelled: how arguments get in and results get out.
-/

namespace Mmkv

/-! ### Strings through the C interface -/

/-- A string argument of a C function, src/ffi/mod.rs:223-226 and 117-122: Swift hands over a zero-terminated copy of the
UTF-8 bytes; `CStr::from_ptr` reads up to the first zero byte, and `to_str().unwrap()` panics on bytes that are no
UTF-8. -/
def cArg (s : String) : Out String :=
  match strOfBytes ((strBytes s).takeWhile fun b => b ≠ 0) with
  | some r => .ok r
  | none => .panic

/-- `set_log_level` of the C interface, src/ffi/mod.rs:312-315: `try_into().unwrap()`; `none` is an abort. -/
def cSetLogLevel (code : Int) : Option LogLevel := LogLevel.ofCode code

/-! ### Swift -/

namespace Swift

/-- What a call of the Swift binding does: a value, an `MMKVError.native`, or the end of the process (a Swift trap, or a Rust
panic in an `extern "C"` function). -/
inductive Res (α : Type) where
  | success (v : α)
  | failure (code : Int) (reason : Option Bytes)
  | crash
deriving DecidableEq, Repr

/-- `0...count - 1`, ios/MMKV/Sources/MMKV/FFI.swift:27: a closed range traps when its upper bound is below its lower
bound; else the indices it runs over. -/
def closedRange (count : Nat) : Option (List Nat) :=
  if (count : Int) - 1 < 0 then none else some (List.range count)

/-- `readArray`, ios/MMKV/Sources/MMKV/FFI.swift:20-32, on an array whose elements are there: append the element at every
index of the range; `none` is a trap (range or out-of-bounds). -/
def readArray {α : Type} (source : List α) : Option (List α) :=
  (closedRange source.length).bind fun is => is.mapM fun i => source[i]?

/-- `unwrapResult`, ios/MMKV/Sources/MMKV/ResultWrapper.swift:23-58, on a value found in the result: arrays are copied by
`readArray`, everything else is read in place. -/
def copyOut : (t : Ty) → t.Val → Option t.Val
  | .i32, v => some v
  | .str, v => some v
  | .bool, v => some v
  | .i64, v => some v
  | .f32, v => some v
  | .f64, v => some v
  | .byteArray, v => readArray (α := UInt8) v
  | .i32Array, v => readArray (α := BitVec 32) v
  | .i64Array, v => readArray (α := BitVec 64) v
  | .f32Array, v => readArray (α := BitVec 32) v
  | .f64Array, v => readArray (α := BitVec 64) v

/-- `getX(key).unwrapResult()`, ios/MMKV/Sources/MMKV/MMKV.swift:78-168 with ResultWrapper.swift:23-58: the error pointer
first, then the data; the result is freed when the wrapper goes (ResultWrapper.swift:14-16).  The heap is the one left
behind. -/
def get {ι : Type} (s : Inst ι) (h : Ffi.Heap) (key : String) (t : Ty) : Res t.Val × Ffi.Heap :=
  match cArg key with
  | .ok key =>
    match Ffi.getRet h t (s.get key t) with
    | .abort => (.crash, h)
    | .ok h p =>
      match Ffi.look h p t, Ffi.freeBuffer h p with
      | some (.error code reason), some h => (.failure code reason, h)
      | some (.value v), some h' =>
        match copyOut t v with
        | some v => (.success v, h')
        | none => (.crash, h)
      | _, _ => (.crash, h)
  | _ => (.crash, h)

/-- `getX(key).unwrap(default)`, ResultWrapper.swift:60-70: any failure gives the default. -/
def getOr {ι : Type} (s : Inst ι) (h : Ffi.Heap) (key : String) (t : Ty) (d : t.Val) : Res t.Val :=
  match (get s h key t).1 with
  | .success v => .success v
  | .failure _ _ => .success d
  | .crash => .crash

/-- The value a Swift `put` hands to the store: strings go through `cArg`, arrays as pointer and count
(ios/MMKV/Sources/MMKV/MMKV.swift:78-168, src/ffi/mod.rs:116-153). -/
def arg : (t : Ty) → t.Val → Out t.Val
  | .str, v => cArg v
  | .i32, v => .ok v
  | .bool, v => .ok v
  | .i64, v => .ok v
  | .f32, v => .ok v
  | .f64, v => .ok v
  | .byteArray, v => .ok v
  | .i32Array, v => .ok v
  | .i64Array, v => .ok v
  | .f32Array, v => .ok v
  | .f64Array, v => .ok v

/-- The call a Swift `putX(key, value)` makes on the store; `none`: it crashes first. -/
def put {ι : Type} (key : String) (t : Ty) (v : t.Val) : Option (Ev ι) :=
  match cArg key, arg t v with
  | .ok key, .ok v => some (.put key t.token (toBytes t v))
  | _, _ => none

/-- `putX(key, value).unwrapResult()` and `delete(key).unwrapResult()`, given what the store returned (ios/MMKV/Sources/MMKV/MMKV.swift:78-169
with ResultWrapper.swift:23-30): the error pointer first; no data is success.  `t` is the token of the result (`delete`: `Str`). -/
def unitResult (h : Ffi.Heap) (t : Ty) (r : Out Unit) : Res Unit × Ffi.Heap :=
  match Ffi.unitRet h t r with
  | .abort => (.crash, h)
  | .ok h p =>
    match Ffi.look h p t, Ffi.freeBuffer h p with
    | some (.error code reason), some h => (.failure code reason, h)
    | some .nothing, some h => (.success (), h)
    | _, _ => (.crash, h)

/-- `clearData()`, ios/MMKV/Sources/MMKV/MMKV.swift:74-76, src/ffi/mod.rs:332-338: `clear_data().unwrap()`. -/
def clearResult : Out Unit → Res Unit
  | .ok () => .success ()
  | .err _ => .crash
  | .panic => .crash

end Swift

/-! ### Kotlin -/

namespace Kotlin

/-- What a call of the Kotlin binding does. -/
inductive Res (α : Type) where
  | value (v : α)
  | keyNotFound
  | native
  | crash
deriving DecidableEq, Repr

/-- The Kotlin value of a type: bytes are signed. -/
abbrev Val : Ty → Type
  | .byteArray => List Int8
  | .i32 => BitVec 32
  | .str => String
  | .bool => Bool
  | .i64 => BitVec 64
  | .f32 => BitVec 32
  | .f64 => BitVec 64
  | .i32Array => List (BitVec 32)
  | .i64Array => List (BitVec 64)
  | .f32Array => List (BitVec 32)
  | .f64Array => List (BitVec 64)

/-- `Get<Type>ArrayRegion` / `Set<Type>ArrayRegion` from index 0: the elements of `src` go over the first ones of `dst`. -/
def region {α : Type} (dst src : List α) : List α := src ++ dst.drop src.length

/-- `jarray_to_native!`, src/jni/mod.rs:35-43: a vector of the array's length, filled with a default, then overwritten. -/
def jarrayToNative {α : Type} (default : α) (value : List α) : List α := region (List.replicate value.length default) value

/-- `native_to_jarray!`, src/jni/mod.rs:45-51: a new array (zeros) of the vector's length, then overwritten. -/
def nativeToJarray {α : Type} (zero : α) (value : List α) : List α := region (List.replicate value.length zero) value

/-- A Kotlin `Boolean` as `jboolean`. -/
def jboolean (b : Bool) : UInt8 := if b then 1 else 0

/-- `mmkv_put!`, src/jni/mod.rs:53-94: the Rust value.  Simplification: strings are texts, that
`get_string` gives unchanged; Model/JniString has Kotlin's own strings. -/
def toNative : (t : Ty) → Val t → t.Val
  | .i32, v => v
  | .str, v => v
  | .bool, v => (jboolean v == 1)
  | .i64, v => v
  | .f32, v => v
  | .f64, v => v
  | .byteArray, v => ((jarrayToNative 0 (show List Int8 from v)).map fun x => x.toUInt8)
  | .i32Array, v => jarrayToNative (α := BitVec 32) 0 v
  | .i64Array, v => jarrayToNative (α := BitVec 64) 0 v
  | .f32Array, v => jarrayToNative (α := BitVec 32) 0 v
  | .f64Array, v => jarrayToNative (α := BitVec 64) 0 v

/-- `mmkv_get!`, src/jni/mod.rs:96-145: the Kotlin value. -/
def ofNative : (t : Ty) → t.Val → Val t
  | .i32, v => v
  | .str, v => v
  | .bool, v => ((if (show Bool from v) then (1 : UInt8) else 0) != 0)
  | .i64, v => v
  | .f32, v => v
  | .f64, v => v
  | .byteArray, v => nativeToJarray 0 ((show List UInt8 from v).map fun x => x.toInt8)
  | .i32Array, v => nativeToJarray (α := BitVec 32) 0 v
  | .i64Array, v => nativeToJarray (α := BitVec 64) 0 v
  | .f32Array, v => nativeToJarray (α := BitVec 32) 0 v
  | .f64Array, v => nativeToJarray (α := BitVec 64) 0 v

/-- The call `putX(key, value)` makes on the store, src/jni/mod.rs:147-178. -/
def put {ι : Type} (key : String) (t : Ty) (v : Val t) : Ev ι := .put key t.token (toBytes t (toNative t v))

/-- What `putX` does with what the store returns, src/jni/mod.rs:162-176: every error is a `NativeException`. -/
def putResult : Out Unit → Res Unit
  | .ok () => .value ()
  | .err _ => .native
  | .panic => .crash

/-- What `delete` does with what the store returns, src/jni/mod.rs:392-411: every error is a `KeyNotFoundException` (MMKV.kt
declares `NativeException`). -/
def deleteResult : Out Unit → Res Unit
  | .ok () => .value ()
  | .err _ => .keyNotFound
  | .panic => .crash

/-- `clearData`, src/jni/mod.rs:431-438: `clear_data().unwrap()`; a panic cannot leave an `extern "C"` function. -/
def clearResult : Out Unit → Res Unit
  | .ok () => .value ()
  | .err _ => .crash
  | .panic => .crash

/-- `getX(key)`, `impl_java_get!`, src/jni/mod.rs:180-208: every error is a `KeyNotFoundException`. -/
def get {ι : Type} (s : Inst ι) (key : String) (t : Ty) : Res (Val t) :=
  match s.get key t with
  | .ok v => .value (ofNative t v)
  | .err _ => .keyNotFound
  | .panic => .crash

/-- `getX(key, default)`, android/library/src/main/java/net/yangkx/mmkv/MMKV.kt:62-68 and alike. -/
def getOr {ι : Type} (s : Inst ι) (key : String) (t : Ty) (d : Val t) : Res (Val t) :=
  match get s key t with
  | .keyNotFound => .value d
  | r => r

/-- `setLogLevel`, src/jni/mod.rs:413-429. -/
def setLogLevel (code : Int) : Res LogLevel :=
  match LogLevel.ofCode code with
  | some l => .value l
  | none => .native

end Kotlin
end Mmkv
