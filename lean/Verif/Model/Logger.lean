import Verif.Model.Looper
/-!
# Logging: src/log/logger.rs, src/log/mod.rs

A filter by level in front of a background thread of its own (`IOLooper<LogWriter>`).  Loggers are numbered; what a
logger does with a message is its own business, but it may panic.
-/

namespace Mmkv

/-- `LogLevel`, src/log/mod.rs:19-27. -/
inductive LogLevel where
  | off | error | warn | info | debug | verbose
deriving DecidableEq, Repr

/-- `level as i32`, src/log/logger.rs:67 and 80 (the discriminants count from 0 in order of declaration). -/
def LogLevel.code : LogLevel → Int
  | .off => 0 | .error => 1 | .warn => 2 | .info => 3 | .debug => 4 | .verbose => 5

/-- `TryFrom<i32> for LogLevel`, src/log/mod.rs:29-43. -/
def LogLevel.ofCode (v : Int) : Option LogLevel :=
  if v = LogLevel.off.code then some .off
  else if v = LogLevel.error.code then some .error
  else if v = LogLevel.warn.code then some .warn
  else if v = LogLevel.info.code then some .info
  else if v = LogLevel.debug.code then some .debug
  else if v = LogLevel.verbose.code then some .verbose
  else none

namespace Log

/-- The methods of the `Logger` trait, src/log/mod.rs:11-17. -/
inductive Method where
  | verbose | info | debug | warn | error
deriving DecidableEq, Repr

/-- What comes out at the other end: a method of a logger called with a message, or a line printed (`level` stands for
its letter, src/log/mod.rs:46-54; time, process and thread id are left out). -/
inductive Delivery where
  | call (logger : Nat) (m : Method) (msg : String)
  | print (level : LogLevel) (msg : String)
deriving DecidableEq, Repr

/-- The closures posted to the log thread: src/log/logger.rs:57-59 and 91-94. -/
inductive Job where
  | write (level : LogLevel) (msg : String)
  | setLogger (l : Option Nat)
deriving DecidableEq, Repr

/-- `LogWriter` (src/log/logger.rs:14-16), with a ghost record of what it delivered. -/
structure Writer where
  inner : Option Nat := none
  out : List Delivery := []
deriving DecidableEq, Repr

/-- `LogWriter::redirect`, src/log/logger.rs:28-38: which method is called. -/
def redirect : LogLevel → Option Method
  | .error => some .error
  | .warn => some .warn
  | .info => some .info
  | .debug => some .debug
  | .verbose => some .verbose
  | .off => none

/-- Running a job of the log thread: `LogWriter::write` (src/log/logger.rs:19-26), or the exchange of the logger
(91-94).  `bad l m msg`: logger `l` panics on this call. -/
def exec (bad : Nat → Method → String → Bool) (_ : Unit) : Job → Writer → Run Writer
  | .write level msg, w =>
    match w.inner with
    | some l =>
      match redirect level with
      | some m =>
        if bad l m msg then .panic { w with out := w.out ++ [.call l m msg] }
        else .done { w with out := w.out ++ [.call l m msg] }
      | none => .done w
    | none => .done { w with out := w.out ++ [.print level msg] }
  | .setLogger l, w => .done { w with inner := l }

/-- The logger of a process: `LOG_LEVEL` (src/log/logger.rs:77), `LOG_WRAPPER` (64), and the messages of `log` calls that
have passed the filter and not yet been queued. -/
structure St where
  level : Int := 5
  pending : List (LogLevel × String) := []
  lp : Looper.St Unit Job Writer := Looper.new {}

/-- One event: `set_log_level` (src/log/logger.rs:79-81); the filter of a `log` call (66-69); its message formatted and
queued (54-59, first half of `post`) - of the `k`-th of the calls that are between the two, in whatever thread;
`set_logger` (87-94, first half); the second half of any `post`, with its `unwrap` (60, 95); a step of the log thread. -/
inductive Ev where
  | setLevel (l : LogLevel)
  | log (level : LogLevel) (msg : String)
  | queue (k : Nat)
  | setLogger (l : Option Nat)
  | send
  | io
deriving DecidableEq, Repr

/-- One event; `none` when it is impossible; the second component is true when the calling thread panics. -/
def step (bad : Nat → Method → String → Bool) (s : St) : Ev → Option (St × Bool)
  | .setLevel l => some ({ s with level := l.code }, false)
  | .log level msg =>
    if s.level < level.code then some (s, false)
    else some ({ s with pending := s.pending ++ [(level, msg)] }, false)
  | .queue k =>
    match s.pending[k]? with
    | none => none
    | some (level, msg) =>
      some ({ s with pending := s.pending.eraseIdx k, lp := Looper.push s.lp (.write level msg) }, false)
  | .setLogger l => some ({ s with lp := Looper.push s.lp (.setLogger l) }, false)
  | .send =>
    if 0 < s.lp.owed then
      let (lp, ok) := Looper.send s.lp
      some ({ s with lp := lp }, !ok)
    else none
  | .io => (Looper.ioStep (exec bad) () s.lp).map fun lp => ({ s with lp := lp }, false)

/-- A history: the final state, and for each event whether its thread panicked. -/
def run (bad : Nat → Method → String → Bool) : St → List Ev → Option (St × List Bool)
  | s, [] => some (s, [])
  | s, e :: es => match step bad s e with
    | none => none
    | some (s', p) => match run bad s' es with
      | none => none
      | some (s'', ps) => some (s'', p :: ps)

end Log
end Mmkv
