import Verif.Model.CLog
/-!
# The texts the C interface logs: src/ffi/ffi_buffer.rs, src/ffi/mod.rs

The messages of Model/CLog again, now with their texts: the `{:?}` of the results and of what they hold.  A message is what
`log` (src/log/logger.rs:66-71) is called with, without the prefix `[MMKV:FFI] ` that `format_log` puts in front of every one.
-/

namespace Mmkv.LogText
open Ffi

/-- How Rust prints what depends on the machine or on float formatting: pointers (`{:?}` of `*const T`), floats given by their
bits, and strings in quotes with escapes.  The theorems leave them open. -/
structure Fmt where
  ptr : Ptr → String
  f32 : BitVec 32 → String
  f64 : BitVec 64 → String
  quoted : String → String

/-- A message: its level and its text. -/
abbrev Msg := LogLevel × String

/-- `{:?}` of an `i32`, `i64` or `u8`. -/
def decimal (z : Int) : String := z.repr

/-- What follows the first element in the `{:?}` of a slice. -/
def tailText : List String → String
  | [] => "]"
  | x :: xs => ", " ++ x ++ tailText xs

/-- `{:?}` of a slice with elements printed so: `[1, 2]`. -/
def sliceText : List String → String
  | [] => "[]"
  | x :: xs => "[" ++ x ++ tailText xs

/-- `{:?}` of the values of each type, as the derived and built-in `Debug` print them. -/
def valText (fmt : Fmt) : (t : Ty) → t.Val → String
  | .i32, v => decimal (BitVec.toInt v)
  | .str, v => fmt.quoted v
  | .bool, v => match (v : Bool) with | true => "true" | false => "false"
  | .i64, v => decimal (BitVec.toInt v)
  | .f32, v => fmt.f32 v
  | .f64, v => fmt.f64 v
  | .byteArray, v => sliceText ((v : List UInt8).map fun b => decimal b.toNat)
  | .i32Array, v => sliceText ((v : List (BitVec 32)).map fun b => decimal b.toInt)
  | .i64Array, v => sliceText ((v : List (BitVec 64)).map fun b => decimal b.toInt)
  | .f32Array, v => sliceText ((v : List (BitVec 32)).map fmt.f32)
  | .f64Array, v => sliceText ((v : List (BitVec 64)).map fmt.f64)

/-- `{:?}` of `Types`, src/ffi/mod.rs:20-35. -/
def typeText : Ty → String
  | .i32 => "I32" | .str => "Str" | .bool => "Bool" | .i64 => "I64" | .f32 => "F32" | .f64 => "F64"
  | .byteArray => "ByteArray" | .i32Array => "I32Array" | .i64Array => "I64Array" | .f32Array => "F32Array"
  | .f64Array => "F64Array"

/-- The names `impl_put!`, `impl_get!` and `impl_put_typed_array!` are used with, src/ffi/mod.rs:355-388, after the verb. -/
def typeName : Ty → String
  | .i32 => "i32" | .str => "string" | .bool => "bool" | .i64 => "i64" | .f32 => "f32" | .f64 => "f64"
  | .byteArray => "byte array" | .i32Array => "i32 array" | .i64Array => "i64 array" | .f32Array => "f32 array"
  | .f64Array => "f64 array"

/-- The derived `{:?}` of the structs in src/ffi/mod.rs: `ByteSlice` (36-41). -/
def byteSliceText (fmt : Fmt) (b : Ptr) (len : Nat) : String :=
  "ByteSlice { bytes: " ++ fmt.ptr b ++ ", len: " ++ decimal len ++ " }"

/-- `RawTypedArray`, src/ffi/mod.rs:43-49. -/
def typedArrayText (fmt : Fmt) (a : Ptr) (t : Ty) (len : Nat) : String :=
  "RawTypedArray { array: " ++ fmt.ptr a ++ ", type_token: " ++ typeText t ++ ", len: " ++ decimal len ++ " }"

/-- `RawBuffer`, src/ffi/mod.rs:101-107. -/
def rawBufferText (fmt : Fmt) (d : Ptr) (t : Ty) (e : Ptr) : String :=
  "RawBuffer { raw_data: " ++ fmt.ptr d ++ ", type_token: " ++ typeText t ++ ", err: " ++ fmt.ptr e ++ " }"

/-- `InternalError`, src/ffi/mod.rs:109-114. -/
def internalErrorText (fmt : Fmt) (code : Int) (r : Ptr) : String :=
  "InternalError { code: " ++ decimal code ++ ", reason: " ++ fmt.ptr r ++ " }"

/-- `verbose!(LOG_TAG, "leak {log}, ptr: {:?}", ptr)`, src/ffi/ffi_buffer.rs:24-26, 94, 194. -/
def leakMsg (fmt : Fmt) (what : String) (p : Ptr) : Msg := (.verbose, "leak " ++ what ++ ", ptr: " ++ fmt.ptr p)

/-- `verbose!(LOG_TAG, "release {:?}, ptr: {}", boxed, log)`, src/ffi/ffi_buffer.rs:38-40, 51, 219-226. -/
def releaseMsg (fmt : Fmt) (what : String) (p : Ptr) : Msg := (.verbose, "release " ++ what ++ ", ptr: " ++ fmt.ptr p)

/-- `verbose!(LOG_TAG, "{} for key '{}' success", $log, key_str)`, src/ffi/mod.rs:230, 261, 287. -/
def successMsg (what key : String) : Msg := (.verbose, what ++ " for key '" ++ key ++ "' success")

/-- The messages of an array made into a result: `RawTypedArray::new` (src/ffi/ffi_buffer.rs:89-101) inside `mmkv_get!`
(src/ffi/mod.rs:155-199), the success message, `leak` (src/ffi/ffi_buffer.rs:20-27) inside `set_data` (136-141). -/
def arrayMsgs (fmt : Fmt) (h : Heap) (l : Layout) (c : Cell) (t : Ty) (len : Nat) (text : String) (success : Msg) : List Msg :=
  let (h1, a) := h.alloc l c
  let (_, d) := h1.alloc lTypedArray (.typedArray a t len)
  [leakMsg fmt text a, success, leakMsg fmt (typedArrayText fmt a t len) d]

/-- The messages of a value made into a result, with the success message of the `get_…`; `set_data`,
src/ffi/ffi_buffer.rs:136-141.  A `ByteSlice` is not printed (24). -/
def dataText (fmt : Fmt) (h : Heap) (success : Msg) : (t : Ty) → t.Val → List Msg
  | .str, _ => [success]
  | .i32, v => [success, leakMsg fmt (valText fmt .i32 v) (leakData h .i32 v).2]
  | .bool, v => [success, leakMsg fmt (valText fmt .bool v) (leakData h .bool v).2]
  | .i64, v => [success, leakMsg fmt (valText fmt .i64 v) (leakData h .i64 v).2]
  | .f32, v => [success, leakMsg fmt (valText fmt .f32 v) (leakData h .f32 v).2]
  | .f64, v => [success, leakMsg fmt (valText fmt .f64 v) (leakData h .f64 v).2]
  | .byteArray, v => arrayMsgs fmt h (lBytes (List.length v)) (.bytes v) .byteArray (List.length v) (valText fmt .byteArray v) success
  | .i32Array, v => arrayMsgs fmt h (lArr32 (List.length v)) (.arr32 v) .i32Array (List.length v) (valText fmt .i32Array v) success
  | .i64Array, v => arrayMsgs fmt h (lArr64 (List.length v)) (.arr64 v) .i64Array (List.length v) (valText fmt .i64Array v) success
  | .f32Array, v => arrayMsgs fmt h (lArr32 (List.length v)) (.arr32 v) .f32Array (List.length v) (valText fmt .f32Array v) success
  | .f64Array, v => arrayMsgs fmt h (lArr64 (List.length v)) (.arr64 v) .f64Array (List.length v) (valText fmt .f64Array v) success

/-- `{:?}` of `crate::Error`, src/lib.rs:19-33. -/
def errorText (fmt : Fmt) : Error → String
  | .keyNotFound => "KeyNotFound"
  | .decodeFailed r => "DecodeFailed(" ++ fmt.quoted r ++ ")"
  | .typeMissMatch => "TypeMissMatch"
  | .dataInvalid => "DataInvalid"
  | .instanceClosed => "InstanceClosed"
  | .encodeFailed r => "EncodeFailed(" ++ fmt.quoted r ++ ")"
  | .ioError r => "IOError(" ++ fmt.quoted r ++ ")"
  | .lockError r => "LockError(" ++ fmt.quoted r ++ ")"
  | .decryptFailed r => "DecryptFailed(" ++ fmt.quoted r ++ ")"
  | .encryptFailed r => "EncryptFailed(" ++ fmt.quoted r ++ ")"

/-- The messages of `InternalError::new` and `set_error`, src/ffi/ffi_buffer.rs:182-198 and 162-164. -/
def leakErrorText (fmt : Fmt) (h : Heap) (code : Int) (reason : Option String) : List Msg :=
  let (_, q) := leakError h code reason
  match reason with
  | none => [leakMsg fmt (internalErrorText fmt code .null) q]
  | some s =>
    let (_, b) := h.alloc (lBytes (strBytes s).length) (.bytes (strBytes s))
    let (_, r) := leakSlice h s
    [leakMsg fmt (byteSliceText fmt b (strBytes s).length) r, leakMsg fmt (internalErrorText fmt code r) q]

/-- `map_error` (src/ffi/mod.rs:201-208), the error put into the result, the result leaked. -/
def failText (fmt : Fmt) (h : Heap) (what key : String) (t : Ty) (e : Error) : List Msg :=
  [(LogLevel.error, "failed to " ++ what ++ " for key " ++ key ++ ", reason " ++ errorText fmt e)] ++
    match errorCode e with
    | none => []
    | some (code, reason) =>
      let (h1, q) := leakError h code reason
      let (_, p) := h1.alloc lRawBuffer (.rawBuffer .null t q)
      leakErrorText fmt h code reason ++ [leakMsg fmt (rawBufferText fmt .null t q) p]

/-- The messages of a `get_…` on a key, src/ffi/mod.rs:268-296, given what `MMKV::get` returned. -/
def getText (fmt : Fmt) (h : Heap) (key : String) (t : Ty) : Out t.Val → List Msg
  | .ok v =>
    let (h1, d) := leakData h t v
    let (_, p) := h1.alloc lRawBuffer (.rawBuffer d t .null)
    dataText fmt h (successMsg ("get " ++ typeName t) key) t v ++ [leakMsg fmt (rawBufferText fmt d t .null) p]
  | .err e => failText fmt h ("get " ++ typeName t) key t e
  | .panic => []

/-- The messages of a `put_…` on a key, src/ffi/mod.rs:210-266, given what `MMKV::put` returned. -/
def putText (fmt : Fmt) (h : Heap) (key : String) (t : Ty) : Out Unit → List Msg
  | .ok () => [successMsg ("put " ++ typeName t) key,
      leakMsg fmt (rawBufferText fmt .null t .null) (h.alloc lRawBuffer (.rawBuffer .null t .null)).2]
  | .err e => failText fmt h ("put " ++ typeName t) key t e
  | .panic => []

/-- The messages of `delete`, src/ffi/mod.rs:340-353. -/
def deleteText (fmt : Fmt) (h : Heap) (key : String) : Out Unit → List Msg
  | .ok () => [(LogLevel.verbose, "delete key " ++ key ++ " success"),
      leakMsg fmt (rawBufferText fmt .null .str .null) (h.alloc lRawBuffer (.rawBuffer .null .str .null)).2]
  | .err e => failText fmt h "delete" key .str e
  | .panic => []

/-- The value printed when it is released.  Simplification: an empty text if there is no such value, which is undefined
behaviour in the code. -/
def heldText (fmt : Fmt) (h : Heap) (d : Ptr) (t : Ty) : String :=
  match readData h d t with
  | some v => valText fmt t v
  | none => ""

/-- `RawBuffer::drop_data`, src/ffi/ffi_buffer.rs:143-160; for an array the struct first (34-42), then its elements
(45-54, through 103-125). -/
def dropDataText (fmt : Fmt) (h : Heap) (d : Ptr) (t : Ty) : List Msg :=
  if d = .null then []
  else match t with
    | .str => []
    | .i32 | .bool | .i64 | .f32 | .f64 => [releaseMsg fmt (heldText fmt h d t) d]
    | .byteArray | .i32Array | .i64Array | .f32Array | .f64Array =>
      match h.read d with
      | some (.typedArray a token len) =>
        [releaseMsg fmt (typedArrayText fmt a token len) d, releaseMsg fmt (heldText fmt h d t) a]
      | _ => [(LogLevel.verbose, ""), (LogLevel.verbose, "")]

/-- `RawBuffer::drop_error`, src/ffi/ffi_buffer.rs:166-170, with `InternalError::release` (216-231). -/
def dropErrorText (fmt : Fmt) (h : Heap) (e : Ptr) : List Msg :=
  if e = .null then []
  else match h.read e with
    | some (.internalError code r) =>
      releaseMsg fmt (internalErrorText fmt code r) e ::
        if r = .null then []
        else match h.read r with
          | some (.byteSlice b len) => [releaseMsg fmt (byteSliceText fmt b len) r]
          | _ => [(LogLevel.verbose, "")]
    | _ => []

/-- The messages of `free_buffer`, src/ffi/mod.rs:318-321: `<*mut RawBuffer>::release` prints the result, then its drop runs
`RawBuffer::release` (src/ffi/ffi_buffer.rs:173-180). -/
def freeText (fmt : Fmt) (h : Heap) (p : Ptr) : List Msg :=
  match h.read p with
  | some (.rawBuffer d t e) => releaseMsg fmt (rawBufferText fmt d t e) p :: dropDataText fmt h d t ++ dropErrorText fmt h e
  | _ => []

/-- The filter of `log`, src/log/logger.rs:66-71: what gets to the log at a level (5 unless `set_log_level` was called,
src/log/logger.rs:77). -/
def atLevel (level : Int) (l : List Msg) : List Msg := l.filter fun m => ¬ level < m.1.code

end Mmkv.LogText
