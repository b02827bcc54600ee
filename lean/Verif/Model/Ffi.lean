import Verif.Model.Instance
/-!
# The C interface: src/ffi/mod.rs, src/ffi/ffi_buffer.rs, proc_macro_lib/src/lib.rs

What the C functions allocate, what `free_buffer` releases, and what a C caller reads in between.  The heap is a list of
live blocks, each with the layout it was allocated with; anything Rust calls undefined behaviour (releasing a block that
is not live, or with another layout) is `none`.  Sizes are those of a 64-bit target.
-/

namespace Mmkv.Ffi

/-- `std::alloc::Layout`. -/
structure Layout where
  size : Nat
  align : Nat
deriving DecidableEq, Repr

/-- A raw pointer: null, the non-null pointer to nothing that stands for an allocation of size 0, or a block. -/
inductive Ptr where
  | null
  | dangling
  | addr (n : Nat)
deriving DecidableEq, Repr

/-- What a block holds: the payload of a number, a `bool`, a boxed `str`, boxed slices, or one of the structs
`ByteSlice` (src/ffi/mod.rs:37-40), `RawTypedArray` (44-48), `InternalError` (111-114), `RawBuffer` (103-107). -/
inductive Cell where
  | num32 (v : BitVec 32)
  | num64 (v : BitVec 64)
  | bool (v : Bool)
  | bytes (b : Bytes)
  | arr32 (l : List (BitVec 32))
  | arr64 (l : List (BitVec 64))
  | byteSlice (bytes : Ptr) (len : Nat)
  | typedArray (array : Ptr) (token : Ty) (len : Nat)
  | internalError (code : Int) (reason : Ptr)
  | rawBuffer (data : Ptr) (token : Ty) (err : Ptr)
deriving DecidableEq, Repr

/-- The heap: live blocks, and the next address never used. -/
structure Heap where
  next : Nat := 0
  blocks : List (Nat × Layout × Cell) := []
deriving DecidableEq, Repr

namespace Heap

/-- `Box::new` / `Vec::into_boxed_slice` + `into_raw` / `forget`. -/
def alloc (h : Heap) (l : Layout) (c : Cell) : Heap × Ptr :=
  if l.size = 0 then (h, .dangling)
  else ({ next := h.next + 1, blocks := (h.next, l, c) :: h.blocks }, .addr h.next)

/-- What a pointer leads to. -/
def read (h : Heap) : Ptr → Option Cell
  | .addr n => (h.blocks.find? fun b => b.1 == n).map fun b => b.2.2
  | _ => none

/-- Dropping a `Box` (or `String`) made from a raw pointer: nothing for size 0; else the block must be live and have this
very layout. -/
def dealloc (h : Heap) (p : Ptr) (l : Layout) : Option Heap :=
  if l.size = 0 then some h
  else match p with
    | .addr n =>
      match h.blocks.find? fun b => b.1 == n with
      | some b => if b.2.1 = l then some { h with blocks := h.blocks.filter fun b => b.1 != n } else none
      | none => none
    | _ => none

end Heap

/-- Layouts of the structs (64-bit) and of primitives. -/
def lByteSlice : Layout := ⟨16, 8⟩
/-- `RawTypedArray`, src/ffi/mod.rs:42-48. -/
def lTypedArray : Layout := ⟨24, 8⟩
/-- `InternalError`, src/ffi/mod.rs:109-114. -/
def lInternalError : Layout := ⟨16, 8⟩
/-- `RawBuffer`, src/ffi/mod.rs:101-107. -/
def lRawBuffer : Layout := ⟨24, 8⟩
/-- A number of 32 bits. -/
def l32 : Layout := ⟨4, 4⟩
/-- A number of 64 bits. -/
def l64 : Layout := ⟨8, 8⟩
/-- A `bool`. -/
def lBool : Layout := ⟨1, 1⟩
/-- `[u8]` and `str`. -/
def lBytes (n : Nat) : Layout := ⟨n, 1⟩
/-- `[i32]`, `[f32]`. -/
def lArr32 (n : Nat) : Layout := ⟨4 * n, 4⟩
/-- `[i64]`, `[f64]`. -/
def lArr64 (n : Nat) : Layout := ⟨8 * n, 8⟩

/-- `ByteSlice::new(string).leak()`, src/ffi/ffi_buffer.rs:71-79 and 20-27. -/
def leakSlice (h : Heap) (s : String) : Heap × Ptr :=
  let (h, p) := h.alloc (lBytes (strBytes s).length) (.bytes (strBytes s))
  h.alloc lByteSlice (.byteSlice p (strBytes s).length)

/-- `RawTypedArray::new(vec, token)` then `leak`, src/ffi/ffi_buffer.rs:89-101 and 20-27. -/
def leakArray (h : Heap) (l : Layout) (c : Cell) (token : Ty) (len : Nat) : Heap × Ptr :=
  let (h, p) := h.alloc l c
  h.alloc lTypedArray (.typedArray p token len)

/-- `result.set_data(value)` for the value of a `get`, src/ffi/ffi_buffer.rs:136-141 with `mmkv_get!`,
src/ffi/mod.rs:155-199. -/
def leakData (h : Heap) : (t : Ty) → t.Val → Heap × Ptr
  | .i32, v => h.alloc l32 (.num32 v)
  | .str, v => leakSlice h v
  | .bool, v => h.alloc lBool (.bool v)
  | .i64, v => h.alloc l64 (.num64 v)
  | .f32, v => h.alloc l32 (.num32 v)
  | .f64, v => h.alloc l64 (.num64 v)
  | .byteArray, v => leakArray h (lBytes (List.length v)) (.bytes v) .byteArray (List.length v)
  | .i32Array, v => leakArray h (lArr32 (List.length v)) (.arr32 v) .i32Array (List.length v)
  | .i64Array, v => leakArray h (lArr64 (List.length v)) (.arr64 v) .i64Array (List.length v)
  | .f32Array, v => leakArray h (lArr32 (List.length v)) (.arr32 v) .f32Array (List.length v)
  | .f64Array, v => leakArray h (lArr64 (List.length v)) (.arr64 v) .f64Array (List.length v)

/-- `TryFrom<Error> for InternalError`, src/ffi/ffi_buffer.rs:200-214: code and reason; `none` is `unreachable!`. -/
def errorCode : Error → Option (Int × Option String)
  | .keyNotFound => some (0, none)
  | .decodeFailed r => some (1, some r)
  | .typeMissMatch => some (2, none)
  | .dataInvalid => some (3, none)
  | .instanceClosed => some (4, none)
  | .encodeFailed r => some (5, some r)
  | _ => none

/-- `InternalError::new` + `set_error`, src/ffi/ffi_buffer.rs:182-198 and 162-164. -/
def leakError (h : Heap) (code : Int) (reason : Option String) : Heap × Ptr :=
  match reason with
  | none => h.alloc lInternalError (.internalError code .null)
  | some s =>
    let (h, p) := leakSlice h s
    h.alloc lInternalError (.internalError code p)

/-- What a C function does: return a pointer, or abort the process (a panic cannot leave an `extern "C"` function). -/
inductive Ret where
  | ok (h : Heap) (p : Ptr)
  | abort
deriving DecidableEq, Repr

/-- The tail of `impl_get!`, src/ffi/mod.rs:284-292, given what `MMKV::get` returned. -/
def getRet (h : Heap) (t : Ty) : Out t.Val → Ret
  | .ok v =>
    let (h, d) := leakData h t v
    let (h, p) := h.alloc lRawBuffer (.rawBuffer d t .null)
    .ok h p
  | .err e =>
    match errorCode e with
    | none => .abort
    | some (code, reason) =>
      let (h, q) := leakError h code reason
      let (h, p) := h.alloc lRawBuffer (.rawBuffer .null t q)
      .ok h p
  | .panic => .abort

/-- The tail of `impl_put!`, `impl_put_typed_array!` and `delete`, src/ffi/mod.rs:227-234, 258-265, 346-351 (`delete`
uses the token `Str`), given what `MMKV::put` or `delete` returned. -/
def unitRet (h : Heap) (t : Ty) : Out Unit → Ret
  | .ok () =>
    let (h, p) := h.alloc lRawBuffer (.rawBuffer .null t .null)
    .ok h p
  | .err e =>
    match errorCode e with
    | none => .abort
    | some (code, reason) =>
      let (h, q) := leakError h code reason
      let (h, p) := h.alloc lRawBuffer (.rawBuffer .null t q)
      .ok h p
  | .panic => .abort

/-- `<*mut ByteSlice>::release`, src/ffi/ffi_buffer.rs:34-42, with the derived `Drop` (proc_macro_lib/src/lib.rs:13-20)
running `ByteSlice::release` (81-87). -/
def releaseSlice (h : Heap) (p : Ptr) : Option Heap :=
  match h.read p with
  | some (.byteSlice b len) => (h.dealloc b (lBytes len)).bind fun h => h.dealloc p lByteSlice
  | _ => none

/-- `RawTypedArray::release`, src/ffi/ffi_buffer.rs:112-125: the layout the token stands for; `none` is a panic. -/
def arrayLayout (len : Nat) : Ty → Option Layout
  | .byteArray => some (lBytes len)
  | .i32Array => some (lArr32 len)
  | .i64Array => some (lArr64 len)
  | .f32Array => some (lArr32 len)
  | .f64Array => some (lArr64 len)
  | _ => none

/-- `<*mut RawTypedArray>::release`, src/ffi/ffi_buffer.rs:34-42 with 112-125. -/
def releaseArray (h : Heap) (p : Ptr) : Option Heap :=
  match h.read p with
  | some (.typedArray a token len) =>
    (arrayLayout len token).bind fun l => (h.dealloc a l).bind fun h => h.dealloc p lTypedArray
  | _ => none

/-- `RawBuffer::drop_data`, src/ffi/ffi_buffer.rs:143-160. -/
def dropData (h : Heap) (d : Ptr) (t : Ty) : Option Heap :=
  if d = .null then some h
  else match t with
    | .i32 => h.dealloc d l32
    | .str => releaseSlice h d
    | .bool => h.dealloc d lBool
    | .i64 => h.dealloc d l64
    | .f32 => h.dealloc d l32
    | .f64 => h.dealloc d l64
    | .byteArray | .i32Array | .i64Array | .f32Array | .f64Array => releaseArray h d

/-- `RawBuffer::drop_error`, src/ffi/ffi_buffer.rs:166-170, with `InternalError::release` (216-231). -/
def dropError (h : Heap) (e : Ptr) : Option Heap :=
  if e = .null then some h
  else match h.read e with
    | some (.internalError _ r) =>
      (if r = .null then some h else releaseSlice h r).bind fun h => h.dealloc e lInternalError
    | _ => none

/-- `free_buffer`, src/ffi/mod.rs:318-321: `<*mut RawBuffer>::release`, whose drop runs `RawBuffer::release`
(src/ffi/ffi_buffer.rs:173-180). -/
def freeBuffer (h : Heap) (p : Ptr) : Option Heap :=
  match h.read p with
  | some (.rawBuffer d t e) =>
    (dropData h d t).bind fun h => (dropError h e).bind fun h => h.dealloc p lRawBuffer
  | _ => none

/-! ### What a caller reads -/

/-- The string a `ByteSlice` shows: `len` bytes from its pointer (nothing is read when there are none). -/
def readSlice (h : Heap) (p : Ptr) : Option Bytes :=
  match h.read p with
  | some (.byteSlice b len) =>
    if len = 0 then some []
    else match h.read b with
      | some (.bytes bs) => if bs.length = len then some bs else none
      | _ => none
  | _ => none

/-- The elements a `RawTypedArray` shows. -/
def readArr (h : Heap) (p : Ptr) (t : Ty) : Option (Ptr × Nat) :=
  match h.read p with
  | some (.typedArray a token len) => if token = t then some (a, len) else none
  | _ => none

/-- Elements of 32 bits behind a pointer. -/
def read32s (h : Heap) (p : Ptr) (len : Nat) : Option (List (BitVec 32)) :=
  if len = 0 then some []
  else match h.read p with
    | some (.arr32 l) => if l.length = len then some l else none
    | _ => none

/-- Elements of 64 bits behind a pointer. -/
def read64s (h : Heap) (p : Ptr) (len : Nat) : Option (List (BitVec 64)) :=
  if len = 0 then some []
  else match h.read p with
    | some (.arr64 l) => if l.length = len then some l else none
    | _ => none

/-- Bytes behind a pointer. -/
def read8s (h : Heap) (p : Ptr) (len : Nat) : Option Bytes :=
  if len = 0 then some []
  else match h.read p with
    | some (.bytes l) => if l.length = len then some l else none
    | _ => none

/-- The value behind `raw_data`, read at the type of the token. -/
def readData (h : Heap) (d : Ptr) : (t : Ty) → Option t.Val
  | .i32 => match h.read d with | some (.num32 v) => some v | _ => none
  | .str => (readSlice h d).bind strOfBytes
  | .bool => match h.read d with | some (.bool v) => some v | _ => none
  | .i64 => match h.read d with | some (.num64 v) => some v | _ => none
  | .f32 => match h.read d with | some (.num32 v) => some v | _ => none
  | .f64 => match h.read d with | some (.num64 v) => some v | _ => none
  | .byteArray => (readArr h d .byteArray).bind fun a => read8s h a.1 a.2
  | .i32Array => (readArr h d .i32Array).bind fun a => read32s h a.1 a.2
  | .i64Array => (readArr h d .i64Array).bind fun a => read64s h a.1 a.2
  | .f32Array => (readArr h d .f32Array).bind fun a => read32s h a.1 a.2
  | .f64Array => (readArr h d .f64Array).bind fun a => read64s h a.1 a.2

/-- What a C caller finds in a result: an error with its code and reason, nothing, or a value (the error pointer is
looked at first, as the Swift binding does, ios/MMKV/Sources/MMKV/ResultWrapper.swift:23-58). -/
inductive Seen (t : Ty) where
  | error (code : Int) (reason : Option Bytes)
  | nothing
  | value (v : t.Val)

/-- Reading a result; `none`: a pointer led nowhere. -/
def look (h : Heap) (p : Ptr) (t : Ty) : Option (Seen t) :=
  match h.read p with
  | some (.rawBuffer d token e) =>
    if e ≠ .null then
      match h.read e with
      | some (.internalError code r) =>
        if r = .null then some (.error code none)
        else (readSlice h r).map fun bs => .error code (some bs)
      | _ => none
    else if d = .null then some .nothing
    else if token = t then (readData h d t).map .value
    else none
  | _ => none

/-- `NativeLogger::call_target`, src/ffi/mod.rs:67-71: hand the message to the callback, then release it.  Gives what the
callback could read and the heap afterwards; `none`: undefined behaviour.  Simplification: the callback itself does not
touch the heap. -/
def callTarget (h : Heap) (msg : String) : Option (Bytes × Heap) :=
  let (h, p) := leakSlice h msg
  (readSlice h p).bind fun bs => (releaseSlice h p).map fun h => (bs, h)

end Mmkv.Ffi
