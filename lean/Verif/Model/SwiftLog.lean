import Verif.Model.NativeLog
/-!
# The Swift logger: ios/MMKV/Sources/MMKV/Logger.swift

The user's logger is held by a `LogWrapper`, a reference-counted object.  The library holds one reference, through a raw
pointer; every message that waits in the main queue holds one more.
-/

namespace Mmkv.SLog
open Log (Ev)

/-- The methods of `MMKVLogger`, ios/MMKV/Sources/MMKV/Logger.swift:4-10. -/
inductive Method where
  | trace | debug | info | warning | error
deriving DecidableEq, Repr

/-- What the user's loggers see: a method called with a message; or `deinit` of the wrapper, which calls `info` with a text of
its own and gives the logger up (ios/MMKV/Sources/MMKV/Logger.swift:24-26).  `main`: on the main thread, otherwise on the log
thread. -/
inductive Seen where
  | call (main : Bool) (logger : Nat) (m : Method) (msg : String)
  | bye (main : Bool) (logger : Nat)
deriving DecidableEq, Repr

/-- The wrappers' reference counts, the blocks in the main queue (wrapper, level, message), the wrapper of the block that is
running, what the loggers saw, and whether a wrapper was ever used or released when nobody held it any more. -/
structure Sw where
  refs : Nat → Nat := fun _ => 0
  blocks : List (Nat × Int × String) := []
  running : Option Nat := none
  seen : List Seen := []
  fault : Bool := false

/-- One reference more. -/
def Sw.retain (w : Sw) (l : Nat) : Sw := { w with refs := fun x => if x = l then w.refs l + 1 else w.refs x }

/-- One reference less; the last one runs `deinit`, on the thread that gave it up (Swift's reference counting;
ios/MMKV/Sources/MMKV/Logger.swift:24-26). -/
def Sw.release (w : Sw) (main : Bool) (l : Nat) : Sw :=
  if w.refs l = 0 then { w with fault := true }
  else
    { w with
      refs := fun x => if x = l then w.refs l - 1 else w.refs x
      seen := if w.refs l = 1 then w.seen ++ [.bye main l] else w.seen }

/-- `LogWrapper.log`, ios/MMKV/Sources/MMKV/Logger.swift:28-41: the method for a level. -/
def method (level : Int) : Method :=
  if level = 1 then .error else if level = 2 then .warning else if level = 3 then .info else if level = 4 then .debug
  else .trace

/-- What the log thread does with the wrapper.  The callback (ios/MMKV/Sources/MMKV/Logger.swift:45-52): the message is copied
and a block that captures the wrapper is put into the main queue.  `destroy` (53-56): the library's reference is taken back
and dropped.  A printed line does not concern a logger. -/
def Sw.out (w : Sw) : NLog.Out → Sw
  | .call l level msg =>
    if w.refs l = 0 then { w with fault := true }
    else { w.retain l with blocks := w.blocks ++ [(l, level.code, msg)] }
  | .destroy l => w.release false l
  | .print _ _ => w

/-- The main thread takes a block out of its queue and runs it (ios/MMKV/Sources/MMKV/Logger.swift:49-51), or ends it, which
releases the wrapper the block captured. -/
def Sw.main (w : Sw) : Option Sw :=
  match w.running with
  | some l => some ({ w with running := none }.release true l)
  | none =>
    match w.blocks with
    | [] => none
    | (l, level, msg) :: rest =>
      if w.refs l = 0 then some { w with fault := true }
      else some { w with blocks := rest, running := some l, seen := w.seen ++ [.call true l (method level) msg] }

/-- A process with Swift loggers. -/
structure St where
  nl : NLog.St := {}
  sw : Sw := {}

/-- An event of the library (`NLog.step`), or a step of the main thread with its queue. -/
inductive SEv where
  | lib (e : Ev)
  | main
deriving DecidableEq, Repr

/-- `MMKV.setLogger`, ios/MMKV/Sources/MMKV/MMKV.swift:50-52: a new wrapper, one reference of which is handed over
(`passRetained`, Logger.swift:44). -/
def Sw.set (w : Sw) : Ev → Sw
  | .setLogger (some l) => w.retain l
  | _ => w

/-- One event; what the log thread gives out reaches the Swift side at once (the callback and `destroy` are plain calls). -/
def step (s : St) : SEv → Option St
  | .main => match s.sw.main with
    | none => none
    | some w => some { s with sw := w }
  | .lib e =>
    match NLog.step s.nl e with
    | none => none
    | some (nl, _) =>
      some ⟨nl, (nl.lp.cb.out.drop s.nl.lp.cb.out.length).foldl Sw.out (s.sw.set e)⟩

/-- A history. -/
def run : St → List SEv → Option St
  | s, [] => some s
  | s, e :: es => match step s e with
    | none => none
    | some s' => run s' es

end Mmkv.SLog
