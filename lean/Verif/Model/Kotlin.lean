import Verif.Model.EncWorld
/-!
# Kotlin programs and the garbage collector

A Kotlin `MMKV` object owns one native handle: its constructor makes it (`initialize`, MMKV.kt:49, src/jni/mod.rs:275-291) and only its finalizer releases it
(`finalize`, MMKV.kt:51-53, `close`, src/jni/mod.rs:440-449); there is no other way to close one.  The Java machine runs finalizers on a thread of its own,
at any time after the object has become unreachable: no call through it is under way and the program makes none any more.  That is what `Proc.may` lets a drop
be, so a Kotlin process is a process in which one thread does nothing but drop handles, and the others drop none.
-/

namespace Mmkv.Kotlin
variable {ι : Type}

/-- Steps of a Kotlin process, `fin` being the finalizer thread: MMKV.kt:49-53, src/jni/mod.rs:275-291, 440-449. -/
def allowed (fin : Nat) : PrEv ι → Bool
  | .call t (.drop _ _) => t == fin
  | .call t _ => t != fin
  | _ => true

/-- A run of a Kotlin process (`Proc.run` of steps allowed to it; MMKV.kt:49-53). -/
def run (S : Sys ι) (fin : Nat) (s : Proc ι) (es : List (PrEv ι)) : Option (Proc ι × List (Spec.HEv POp PRes)) :=
  if es.all (allowed fin) then Proc.run S s es else none

/-- The same with the `encryption` feature (`EncThreads.run` of steps allowed to it; MMKV.kt:49-53). -/
def runEnc (S : Sys (Bytes × Bytes)) (keys : Nat → String) (fin : Nat) (s : EncThreads) (es : List (PrEv Bytes)) : Option (EncThreads × List (Spec.HEv POp PRes)) :=
  if es.all (allowed fin) then EncThreads.run S keys s es else none

end Mmkv.Kotlin
