import Verif.Model.Bindings
import Verif.Model.CoreText
/-!
# The texts the Kotlin interface logs and throws: src/jni/mod.rs

Each call of the Kotlin interface logs one message when it returns, and throws an exception with the same text when the store
reported an error.  Beside them the messages of the core (Model/CoreText).  Simplifications: keys are texts (Model/JniString has
Kotlin's own strings); a call that panics logs nothing of its own, and ends the process; the log tag in front is left out.
-/

namespace Mmkv.KText
open LogText (Fmt Msg errorText)
open CoreText (stepText)
variable {ι : Type}

/-- What an app sees: a message, or an exception of a class with a text. -/
inductive Seen where
  | logged (m : Msg)
  | thrown (cls text : String)
deriving DecidableEq, Repr

/-- The names `impl_java_put!` is used with, src/jni/mod.rs:296-336. -/
def putName : Ty → String
  | .str => "string" | .i32 => "i32" | .bool => "bool" | .i64 => "long" | .f32 => "float" | .f64 => "double"
  | .byteArray => "byte array" | .i32Array => "int array" | .i64Array => "long array" | .f32Array => "float array"
  | .f64Array => "double array"

/-- The names `impl_java_get!` is used with, src/jni/mod.rs:338-388. -/
def getName : Ty → String
  | .str => "string" | .i32 => "int" | .bool => "bool" | .i64 => "long" | .f32 => "float" | .f64 => "double"
  | .byteArray => "byte array" | .i32Array => "int array" | .i64Array => "long array" | .f32Array => "float array"
  | .f64Array => "double array"

/-- A failing call: the text is logged at Error, then thrown (src/jni/mod.rs:163-171, 195-203, 404-409). -/
def failed (cls text : String) : List Seen := [.logged (.error, text), .thrown cls text]

/-- The end of `putX`, src/jni/mod.rs:162-176. -/
def putSeen (fmt : Fmt) (key : String) (t : Ty) : Out Unit → List Seen
  | .ok () => [.logged (.verbose, "put " ++ putName t ++ " for key '" ++ key ++ "' success")]
  | .err e => failed "net/yangkx/mmkv/NativeException" ("failed to put " ++ putName t ++ " for key " ++ key ++ ", reason " ++ errorText fmt e)
  | .panic => []

/-- The end of `getX`, src/jni/mod.rs:190-206. -/
def getSeen {α : Type} (fmt : Fmt) (key : String) (t : Ty) : Out α → List Seen
  | .ok _ => [.logged (.verbose, "found " ++ getName t ++ " with key '" ++ key ++ "'")]
  | .err e => failed "net/yangkx/mmkv/KeyNotFoundException" ("get " ++ getName t ++ " for key '" ++ key ++ "' failed, reason: " ++ errorText fmt e)
  | .panic => []

/-- The end of `delete`, src/jni/mod.rs:402-410. -/
def deleteSeen (fmt : Fmt) (key : String) : Out Unit → List Seen
  | .ok () => [.logged (.verbose, "delete key " ++ key ++ " success")]
  | .err e => failed "net/yangkx/mmkv/KeyNotFoundException" ("failed to delete key " ++ key ++ ", reason: " ++ errorText fmt e)
  | .panic => []

/-- What happens in an app that uses the Kotlin interface: calls and the steps of the library (those of `Ev`). -/
inductive KEv (ι : Type) where
  | put (key : String) (t : Ty) (v : Kotlin.Val t)
  | get (key : String) (t : Ty)
  | delete (key : String)
  | clear
  | api (i : ι)
  | drop
  | io (o : Order)

/-- The event of the store, but for reads, which change nothing. -/
def KEv.ev : KEv ι → Option (Ev ι)
  | .put key t v => some (Kotlin.put key t v)
  | .get _ _ => none
  | .delete key => some (.delete key)
  | .clear => some .clear
  | .api i => some (.api i)
  | .drop => some .drop
  | .io o => some (.io o)

/-- The calls of a session without the reads. -/
def evs (es : List (KEv ι)) : List (Ev ι) := es.filterMap KEv.ev

/-- What the call in progress shows when it returns (`clearData`, src/jni/mod.rs:431-438, shows nothing). -/
abbrev Pending := Out Unit → List Seen

/-- The call in progress after an event. -/
def pend (fmt : Fmt) (cur : Pending) : KEv ι → Pending
  | .put key t _ => putSeen fmt key t
  | .delete key => deleteSeen fmt key
  | .clear => fun _ => []
  | _ => cur

/-- All a session shows, in order: what the core logs with each step, and what the interface shows as calls return. -/
def seen (fmt : Fmt) (codecs : ι → Codec) : Inst ι → Pending → List (KEv ι) → List Seen
  | _, _, [] => []
  | s, cur, e :: es =>
    match e with
    | .get key t => getSeen fmt key t (s.get key t) ++ seen fmt codecs s cur es
    | e =>
      match e.ev with
      | none => []
      | some ev =>
        match Inst.step codecs s ev with
        | none => []
        | some (s', r) =>
          (stepText codecs s ev).map .logged ++ r.toList.flatMap (pend fmt cur e) ++ seen fmt codecs s' (pend fmt cur e) es

/-- A result without the value. -/
def outcome {α : Type} : Out α → Out Unit
  | .ok _ => .ok ()
  | .err e => .err e
  | .panic => .panic

/-- The outcomes of the reads of strings of a session: found, or the error. -/
def textReads (codecs : ι → Codec) : Inst ι → List (KEv ι) → List (Out Unit)
  | _, [] => []
  | s, e :: es =>
    match e with
    | .get key .str => outcome (s.get key .str) :: textReads codecs s es
    | .get _ _ => textReads codecs s es
    | e =>
      match e.ev with
      | none => []
      | some ev =>
        match Inst.step codecs s ev with
        | none => []
        | some (s', _) => textReads codecs s' es

end Mmkv.KText
