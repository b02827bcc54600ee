import Verif.Model.Logger
import Verif.Model.JniString
/-!
# Logging on Android: src/jni/mod.rs:210-273, android/library/src/main/java/net/yangkx/mmkv/log/Logger.kt

The log thread of `Model/Logger` with an `AndroidLogger` in it.  It is a native thread, attached to the Java machine for good
(`attach_current_thread_permanently`), and every message makes two local references in it: one to the class, one to the string.
The Java machine frees local references when a native method returns to Java, which this thread never does, and the crate jni
frees none by itself.  How many there may be is up to the Java machine (`cap`: 512 in Android's ART before version 8, 8388608
after; one more aborts the process).
-/

namespace Mmkv.ALog
open Log (Method redirect)

/-- What comes out: a method of a Kotlin logger called with a Kotlin string, or a line printed by the library itself. -/
inductive Delivery where
  | call (logger : Nat) (m : Method) (msg : Jni.JStr)
  | print (level : LogLevel) (msg : String)
deriving DecidableEq, Repr

/-- The closures posted to the log thread: a message (src/log/logger.rs:57-59), or the `AndroidLogger` of `attachLogger`
(src/jni/mod.rs:270-273, src/log/logger.rs:91-94). -/
inductive Job where
  | write (level : LogLevel) (msg : String)
  | attach
deriving DecidableEq, Repr

/-- The log thread's side: is the `AndroidLogger` there, how many local references does the thread hold, has the Java machine
aborted the process; and a ghost record of what was delivered. -/
structure Writer where
  attached : Bool := false
  refs : Nat := 0
  aborted : Bool := false
  out : List Delivery := []
deriving DecidableEq, Repr

/-- A new local reference; `none`: the table is full. -/
def newRef (cap : Nat) (w : Writer) : Option Writer := if w.refs < cap then some { w with refs := w.refs + 1 } else none

/-- `AndroidLogger::call_java`, src/jni/mod.rs:225-241: a local reference to the class (228-230), the string (232), the call
of `LoggerWrapper` (233-238), which calls the Kotlin logger in charge (Logger.kt:60-83); `throws`: that one throws, and the
`unwrap` of line 239 panics. -/
def callJava (cap : Nat) (throws : Nat → Method → Jni.JStr → Bool) (java : Nat) (m : Method) (msg : String) (w : Writer) : Run Writer :=
  match newRef cap w with
  | none => .panic { w with aborted := true }
  | some w =>
    match Jni.newString msg with
    | none => .panic w
    | some js =>
      match newRef cap w with
      | none => .panic { w with aborted := true }
      | some w =>
        if throws java m js then .panic { w with out := w.out ++ [.call java m js] }
        else .done { w with out := w.out ++ [.call java m js] }

/-- A job of the log thread: `LogWriter::write` (src/log/logger.rs:19-38) with the methods of `AndroidLogger`
(src/jni/mod.rs:250-268), or the installation of the logger.  `java` is the value of `LoggerWrapper.logger`
(Logger.kt:34, an unsynchronised variable; simplification: the thread sees the latest value). -/
def exec (cap : Nat) (throws : Nat → Method → Jni.JStr → Bool) (java : Nat) : Job → Writer → Run Writer
  | .write level msg, w =>
    if w.attached then
      match redirect level with
      | some m => callJava cap throws java m msg w
      | none => .done w
    else .done { w with out := w.out ++ [.print level msg] }
  | .attach, w => .done { w with attached := true }

/-- The process: `LOG_LEVEL`, the Kotlin logger in charge (0: the one of Logger.kt:34-54, which writes to the system log),
calls between filter and queue, the log thread. -/
structure St where
  level : Int := 5
  java : Nat := 0
  pending : List (LogLevel × String) := []
  lp : Looper.St Nat Job Writer

/-- The companion object of `MMKV` is initialised before anything else (MMKV.kt:14-17): `attachLogger` has queued its job. -/
def St.start : St := { lp := Looper.push (Looper.new {}) .attach }

/-- One event: `MMKV.setLogLevel` (MMKV.kt:43-45, src/jni/mod.rs:413-429); a log call passes the filter; it is queued;
`MMKV.setLogger` (MMKV.kt:35-37, Logger.kt:56-58), which does not go through the log thread; the second half of a
`post`; a step of the log thread. -/
inductive Ev where
  | setLevel (l : LogLevel)
  | log (level : LogLevel) (msg : String)
  | queue (k : Nat)
  | setLogger (l : Nat)
  | send
  | io
deriving DecidableEq, Repr

/-- One event; `none` when it is impossible (everything is, once the process is aborted); true when the calling thread
panics. -/
def step (cap : Nat) (throws : Nat → Method → Jni.JStr → Bool) (s : St) (e : Ev) : Option (St × Bool) :=
  if s.lp.cb.aborted then none
  else match e with
  | .setLevel l => some ({ s with level := l.code }, false)
  | .log level msg =>
    if s.level < level.code then some (s, false)
    else some ({ s with pending := s.pending ++ [(level, msg)] }, false)
  | .queue k =>
    match s.pending[k]? with
    | none => none
    | some (level, msg) =>
      some ({ s with pending := s.pending.eraseIdx k, lp := Looper.push s.lp (.write level msg) }, false)
  | .setLogger l => some ({ s with java := l }, false)
  | .send =>
    if 0 < s.lp.owed then
      let (lp, ok) := Looper.send s.lp
      some ({ s with lp := lp }, !ok)
    else none
  | .io => (Looper.ioStep (exec cap throws) s.java s.lp).map fun lp => ({ s with lp := lp }, false)

/-- A history: the final state, and for each event whether its thread panicked. -/
def run (cap : Nat) (throws : Nat → Method → Jni.JStr → Bool) : St → List Ev → Option (St × List Bool)
  | s, [] => some (s, [])
  | s, e :: es => match step cap throws s e with
    | none => none
    | some (s', p) => match run cap throws s' es with
      | none => none
      | some (s'', ps) => some (s'', p :: ps)

/-- What a successful `putX` logs, src/jni/mod.rs:171-173 (with the tag of src/log/logger.rs:54). -/
def putLog (type key : String) : LogLevel × String := (.verbose, "[MMKV:Android] put " ++ type ++ " for key '" ++ key ++ "' success")

end Mmkv.ALog
