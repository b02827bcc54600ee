import Verif.Model.Logger
/-!
# Loggers from C and Swift: `NativeLogger`, src/ffi/mod.rs:50-97

A native logger is an object with a callback and a `destroy` function (the Swift one releases the object,
ios/MMKV/Sources/MMKV/Logger.swift).  It is owned by the log thread; when it is replaced, its `Drop` logs a message - to the very
thread it runs on - and calls `destroy`.
-/

namespace Mmkv.NLog
open Log (Job)

/-- What comes out: the callback of a logger, `destroy` of a logger, or a line printed. -/
inductive Out where
  | call (logger : Nat) (level : LogLevel) (msg : String)
  | destroy (logger : Nat)
  | print (level : LogLevel) (msg : String)
deriving DecidableEq, Repr

/-- `LogWriter` (src/log/logger.rs:14-16) with a native logger inside; a ghost record of what came out; and the loggers whose
`Drop` logged during the job that is running. -/
structure Writer where
  inner : Option Nat := none
  out : List Out := []
  dropped : List Nat := []
deriving DecidableEq, Repr

/-- Running a job of the log thread.  `LogWriter::write` and `redirect`, src/log/logger.rs:19-38: each method of a native
logger is the callback with the level's code (src/ffi/mod.rs:66-97).  `set_logger`, src/log/logger.rs:91-94:
`drop(writer.inner_logger.take())`, whose `Drop` is src/ffi/mod.rs:59-64, and the new logger put in place.  A callback
does not unwind into Rust (it is an `extern "C"` function). -/
def exec (_ : Unit) : Job → Writer → Run Writer
  | .write level msg, w =>
    match w.inner with
    | some l => match Log.redirect level with
      | some _ => .done { w with out := w.out ++ [.call l level msg] }
      | none => .done w
    | none => .done { w with out := w.out ++ [.print level msg] }
  | .setLogger l, w =>
    match w.inner with
    | none => .done { w with inner := l }
    | some old => .done { inner := l, out := w.out ++ [.destroy old], dropped := w.dropped ++ [old] }

/-- As `Log.St`. -/
structure St where
  level : Int := 5
  pending : List (LogLevel × String) := []
  lp : Looper.St Unit Job Writer := Looper.new {}

/-- The message of `NativeLogger::drop`, src/ffi/mod.rs:61 (the text stands for the addresses printed). -/
def releaseMsg (l : Nat) : String := "[MMKV:FFI] release " ++ toString l

/-- `verbose!` in `NativeLogger::drop`, src/ffi/mod.rs:61, made by the log thread: the filter, then a whole `post` to itself
(src/log/logger.rs:66-71, 50-61).  The queue lock is free while jobs run (src/core/io_looper.rs:121-125). -/
def say (level : Int) (lp : Looper.St Unit Job Writer) (l : Nat) : Looper.St Unit Job Writer × Bool :=
  if level < LogLevel.verbose.code then (lp, true)
  else Looper.send (Looper.push lp (.write .verbose (releaseMsg l)))

/-- One event, those of `Log.step`; `setLogger l` is `set_logger`, src/ffi/mod.rs:308-311, which passes a logger by value: each
call brings one of its own.  The second component is true when the thread panics.  Simplification: what `Drop` posts is queued
together with the end of the job. -/
def step (s : St) : Log.Ev → Option (St × Bool)
  | .setLevel l => some ({ s with level := l.code }, false)
  | .log level msg =>
    if s.level < level.code then some (s, false)
    else some ({ s with pending := s.pending ++ [(level, msg)] }, false)
  | .queue k =>
    match s.pending[k]? with
    | none => none
    | some (level, msg) =>
      some ({ s with pending := s.pending.eraseIdx k, lp := Looper.push s.lp (.write level msg) }, false)
  | .setLogger l => some ({ s with lp := Looper.push s.lp (.setLogger l) }, false)
  | .send =>
    if 0 < s.lp.owed then
      let (lp, ok) := Looper.send s.lp
      some ({ s with lp := lp }, !ok)
    else none
  | .io =>
    match Looper.ioStep exec () s.lp with
    | none => none
    | some lp =>
      let lp' := { lp with cb := { lp.cb with dropped := [] } }
      match lp.cb.dropped with
      | [] => some ({ s with lp := lp' }, false)
      | l :: _ =>
        let (lp'', ok) := say s.level lp' l
        some ({ s with lp := lp'' }, !ok)

/-- A history: the final state, and for each event whether its thread panicked. -/
def run : St → List Log.Ev → Option (St × List Bool)
  | s, [] => some (s, [])
  | s, e :: es => match step s e with
    | none => none
    | some (s', p) => match run s' es with
      | none => none
      | some (s'', ps) => some (s'', p :: ps)

end Mmkv.NLog
