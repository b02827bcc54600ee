import Verif.Model.Bindings
/-!
# Strings between Kotlin and Rust (src/jni/mod.rs:23-26, 53-57, 97-101, 272-291)

A Kotlin string is a list of UTF-16 code units, in which surrogates need not be paired.  Between it and a Rust `String` lie
the JNI functions `GetStringUTFChars` and `NewStringUTF` of the Java machine ("modified UTF-8") and the conversions of the
crates jni 0.21.1 (Cargo.toml:38) and cesu8 that it calls.  None of the three is part of the repository; they are modelled
from their documentation and source, because what a Kotlin caller sees depends on them.
-/

namespace Mmkv.Jni

/-- A Kotlin `String`: any sequence of 16-bit code units. -/
abbrev JStr := List UInt16

/-- The code units of a character: the standard UTF-16 encoding. -/
def utf16Char (c : Char) : JStr :=
  let v := c.toNat
  if v < 0x10000 then [.ofNat v] else [.ofNat (0xD800 + (v - 0x10000) / 0x400), .ofNat (0xDC00 + (v - 0x10000) % 0x400)]

/-- The standard UTF-16 encoding of a text. -/
def utf16 (s : String) : JStr := s.toList.flatMap utf16Char

/-! ### The Java machine -/

/-- The first unit of a surrogate pair. -/
def isHigh (u : UInt16) : Bool := decide (0xD800 ≤ u.toNat) && decide (u.toNat ≤ 0xDBFF)

/-- The second unit of a surrogate pair. -/
def isLow (u : UInt16) : Bool := decide (0xDC00 ≤ u.toNat) && decide (u.toNat ≤ 0xDFFF)

/-- Modified UTF-8 of one code unit (JNI specification, "Modified UTF-8 Strings"): zero takes two bytes. -/
def unitBytes (u : UInt16) : Bytes :=
  let v := u.toNat
  if 0 < v ∧ v ≤ 0x7F then [.ofNat v]
  else if v ≤ 0x7FF then [.ofNat (v / 64 + 0xC0), .ofNat (v % 64 + 0x80)]
  else [.ofNat (v / 4096 + 0xE0), .ofNat (v / 64 % 64 + 0x80), .ofNat (v % 64 + 0x80)]

/-- Which Java machine: one that follows the JNI specification to the letter, or Android's ART, whose `GetStringUTFChars`
writes a surrogate pair as one four-byte sequence. -/
inductive Vm where
  | spec
  | art
deriving DecidableEq, Repr

/-- The four bytes of a character from U+10000 on. -/
def fourBytes (v : Nat) : Bytes :=
  [.ofNat (v / 262144 + 0xF0), .ofNat (v / 4096 % 64 + 0x80), .ofNat (v / 64 % 64 + 0x80), .ofNat (v % 64 + 0x80)]

/-- The character value of a surrogate pair. -/
def pairValue (u w : UInt16) : Nat := 0x10000 + (u.toNat - 0xD800) * 0x400 + (w.toNat - 0xDC00)

/-- `GetStringUTFChars`, called by `env.get_string`, src/jni/mod.rs:24. -/
def utfChars (vm : Vm) : JStr → Bytes
  | [] => []
  | [u] => unitBytes u
  | u :: w :: rest =>
    if vm = .art ∧ isHigh u ∧ isLow w then fourBytes (pairValue u w) ++ utfChars vm rest
    else unitBytes u ++ utfChars vm (w :: rest)

/-- `NewStringUTF`, called by `env.new_string`, src/jni/mod.rs:100: the code units; `none`: not modified UTF-8.  Four-byte
sequences are left out: `toJavaCesu8` writes none. -/
def newStringUTF : Bytes → Option JStr
  | [] => some []
  | b :: rest =>
    if b.toNat < 0x80 then (newStringUTF rest).map (UInt16.ofNat b.toNat :: ·)
    else if 0xC0 ≤ b.toNat ∧ b.toNat < 0xE0 then
      match rest with
      | c :: rest => (newStringUTF rest).map (UInt16.ofNat (b.toNat % 32 * 64 + c.toNat % 64) :: ·)
      | _ => none
    else if 0xE0 ≤ b.toNat ∧ b.toNat < 0xF0 then
      match rest with
      | c :: d :: rest =>
        (newStringUTF rest).map (UInt16.ofNat (b.toNat % 16 * 4096 + c.toNat % 64 * 64 + d.toNat % 64) :: ·)
      | _ => none
    else none

/-! ### The crates -/

/-- A UTF-8 continuation byte. -/
def cont (b : UInt8) : Bool := decide (0x80 ≤ b.toNat) && decide (b.toNat ≤ 0xBF)

/-- The second bytes UTF-8 allows after a three-byte lead: no overlong form, no surrogate. -/
def second3 (b c : UInt8) : Bool :=
  (b.toNat == 0xE0 && decide (0xA0 ≤ c.toNat) && decide (c.toNat ≤ 0xBF)) ||
  (decide (0xE1 ≤ b.toNat) && decide (b.toNat ≤ 0xEC) && cont c) ||
  (b.toNat == 0xED && decide (0x80 ≤ c.toNat) && decide (c.toNat ≤ 0x9F)) ||
  (decide (0xEE ≤ b.toNat) && decide (b.toNat ≤ 0xEF) && cont c)

/-- The second bytes UTF-8 allows after a four-byte lead. -/
def second4 (b c : UInt8) : Bool :=
  (b.toNat == 0xF0 && decide (0x90 ≤ c.toNat) && decide (c.toNat ≤ 0xBF)) ||
  (decide (0xF1 ≤ b.toNat) && decide (b.toNat ≤ 0xF3) && cont c) ||
  (b.toNat == 0xF4 && decide (0x80 ≤ c.toNat) && decide (c.toNat ≤ 0x8F))

/-- `dec_surrogates` of the crate cesu8: the two last bytes of each half give the character, which goes out as UTF-8. -/
def decSurrogates (second third fifth sixth : UInt8) : Bytes :=
  let s1 := 0xD000 + second.toNat % 64 * 64 + third.toNat % 64
  let s2 := 0xD000 + fifth.toNat % 64 * 64 + sixth.toNat % 64
  fourBytes (0x10000 + (s1 - 0xD800) * 0x400 + (s2 - 0xDC00))

/-- `decode_from_iter` of the crate cesu8, with Java's zero: modified UTF-8 to UTF-8; `none` is an error.  A zero byte and a
four-byte lead are errors. -/
def cesuDecode : Bytes → Option Bytes
  | [] => some []
  | b :: rest =>
    if b.toNat = 0 then none
    else if b.toNat < 0x80 then (cesuDecode rest).map (b :: ·)
    else if b.toNat = 0xC0 then
      match rest with
      | c :: rest => if c.toNat = 0x80 then (cesuDecode rest).map ((0 : UInt8) :: ·) else none
      | _ => none
    else if 0xC2 ≤ b.toNat ∧ b.toNat ≤ 0xDF then
      match rest with
      | c :: rest => if cont c then (cesuDecode rest).map ([b, c] ++ ·) else none
      | _ => none
    else if 0xE0 ≤ b.toNat ∧ b.toNat ≤ 0xEF then
      match rest with
      | c :: d :: rest =>
        if cont c && cont d then
          if second3 b c then (cesuDecode rest).map ([b, c, d] ++ ·)
          else if b.toNat = 0xED ∧ 0xA0 ≤ c.toNat ∧ c.toNat ≤ 0xAF then
            match rest with
            | e :: f :: g :: rest =>
              if e.toNat = 0xED ∧ 0xB0 ≤ f.toNat ∧ f.toNat ≤ 0xBF ∧ cont g then
                (cesuDecode rest).map (decSurrogates c d f g ++ ·)
              else none
            | _ => none
          else none
        else none
      | _ => none
    else none

/-- How many bytes `Utf8Chunks::next` of the Rust library takes for the character, or broken character, at the front. -/
def chunkLen : Bytes → Nat
  | [] => 0
  | b :: rest =>
    let c := rest.getD 0 0
    let d := rest.getD 1 0
    let e := rest.getD 2 0
    if 0xC2 ≤ b.toNat ∧ b.toNat ≤ 0xDF then (if cont c then 2 else 1)
    else if 0xE0 ≤ b.toNat ∧ b.toNat ≤ 0xEF then (if second3 b c then (if cont d then 3 else 2) else 1)
    else if 0xF0 ≤ b.toNat ∧ b.toNat ≤ 0xF4 then
      (if second4 b c then (if cont d then (if cont e then 4 else 3) else 2) else 1)
    else 1

/-- `String::from_utf8_lossy`: every broken character becomes U+FFFD; the first argument bounds the number of chunks. -/
def lossyN : Nat → Bytes → List Char
  | 0, _ => []
  | _, [] => []
  | n + 1, bs =>
    let k := chunkLen bs
    (match strOfBytes (bs.take k) with
      | some s => s.toList
      | none => ['\uFFFD']) ++ lossyN n (bs.drop k)

/-- `String::from_utf8_lossy`. -/
def lossy (bs : Bytes) : String := String.ofList (lossyN bs.length bs)

/-- `Cow<str>::from(&JNIStr)` of the crate jni (`from_java_cesu8`, else `from_utf8_lossy`): UTF-8 as it is; else modified
UTF-8, whose decoding the crate cesu8 asserts to be UTF-8 (`panic`); else the lossy reading. -/
def javaStr (bs : Bytes) : Out String :=
  match strOfBytes bs with
  | some s => .ok s
  | none =>
    match cesuDecode bs with
    | some out =>
      match strOfBytes out with
      | some s => .ok s
      | none => .panic
    | none => .ok (lossy bs)

/-- `env_str`, src/jni/mod.rs:23-26, and the two `get_string`s of `initialize`, src/jni/mod.rs:283-285: a Kotlin string
argument as Rust sees it. -/
def envStr (vm : Vm) (js : JStr) : Out String := javaStr (utfChars vm js)

/-- `to_java_cesu8` of the crate cesu8, on one character: NUL takes two bytes, a character from U+10000 on six. -/
def javaCesuChar (c : Char) : Bytes :=
  let v := c.toNat
  if v = 0 then [0xC0, 0x80]
  else if v < 0x10000 then String.utf8EncodeChar c
  else
    let s1 := 0xD800 + (v - 0x10000) / 0x400
    let s2 := 0xDC00 + (v - 0x10000) % 0x400
    [0xED, .ofNat (s1 / 64 % 64 + 0x80), .ofNat (s1 % 64 + 0x80), 0xED, .ofNat (s2 / 64 % 64 + 0x80),
      .ofNat (s2 % 64 + 0x80)]

/-- `to_java_cesu8`. -/
def toJavaCesu8 (s : String) : Bytes := s.toList.flatMap javaCesuChar

/-- `env.new_string(value)`, src/jni/mod.rs:100: the Kotlin string a caller gets. -/
def newString (s : String) : Option JStr := newStringUTF (toJavaCesu8 s)

/-! ### The Kotlin calls -/

/-- The Kotlin value of a type, with Kotlin's own strings. -/
abbrev JVal : Ty → Type
  | .str => JStr
  | .byteArray => List Int8
  | .i32 => BitVec 32
  | .bool => Bool
  | .i64 => BitVec 64
  | .f32 => BitVec 32
  | .f64 => BitVec 64
  | .i32Array => List (BitVec 32)
  | .i64Array => List (BitVec 64)
  | .f32Array => List (BitVec 32)
  | .f64Array => List (BitVec 64)

/-- `mmkv_put!`, src/jni/mod.rs:53-94: a string goes through `env_str`, everything else as in `Kotlin.toNative`. -/
def arg (vm : Vm) : (t : Ty) → JVal t → Out t.Val
  | .str, v => envStr vm v
  | .byteArray, v => .ok (Kotlin.toNative .byteArray v)
  | .i32, v => .ok (Kotlin.toNative .i32 v)
  | .bool, v => .ok (Kotlin.toNative .bool v)
  | .i64, v => .ok (Kotlin.toNative .i64 v)
  | .f32, v => .ok (Kotlin.toNative .f32 v)
  | .f64, v => .ok (Kotlin.toNative .f64 v)
  | .i32Array, v => .ok (Kotlin.toNative .i32Array v)
  | .i64Array, v => .ok (Kotlin.toNative .i64Array v)
  | .f32Array, v => .ok (Kotlin.toNative .f32Array v)
  | .f64Array, v => .ok (Kotlin.toNative .f64Array v)

/-- `mmkv_get!`, src/jni/mod.rs:96-145: a string goes through `new_string(..).unwrap()`. -/
def ret : (t : Ty) → t.Val → Option (JVal t)
  | .str, v => newString v
  | .byteArray, v => some (Kotlin.ofNative .byteArray v)
  | .i32, v => some (Kotlin.ofNative .i32 v)
  | .bool, v => some (Kotlin.ofNative .bool v)
  | .i64, v => some (Kotlin.ofNative .i64 v)
  | .f32, v => some (Kotlin.ofNative .f32 v)
  | .f64, v => some (Kotlin.ofNative .f64 v)
  | .i32Array, v => some (Kotlin.ofNative .i32Array v)
  | .i64Array, v => some (Kotlin.ofNative .i64Array v)
  | .f32Array, v => some (Kotlin.ofNative .f32Array v)
  | .f64Array, v => some (Kotlin.ofNative .f64Array v)

/-- The call `putX(key, value)` makes on the store, src/jni/mod.rs:147-178; `none`: it crashes first. -/
def put {ι : Type} (vm : Vm) (key : JStr) (t : Ty) (v : JVal t) : Option (Ev ι) :=
  match envStr vm key, arg vm t v with
  | .ok key, .ok v => some (.put key t.token (toBytes t v))
  | _, _ => none

/-- `delete(key)`, src/jni/mod.rs:392-411. -/
def delete {ι : Type} (vm : Vm) (key : JStr) : Option (Ev ι) :=
  match envStr vm key with
  | .ok key => some (.delete key)
  | _ => none

/-- `getX(key)`, src/jni/mod.rs:180-208. -/
def get {ι : Type} (vm : Vm) (s : Inst ι) (key : JStr) (t : Ty) : Kotlin.Res (JVal t) :=
  match envStr vm key with
  | .ok key =>
    match s.get key t with
    | .ok v =>
      match ret t v with
      | some v => .value v
      | none => .crash
    | .err _ => .keyNotFound
    | .panic => .crash
  | _ => .crash

end Mmkv.Jni
