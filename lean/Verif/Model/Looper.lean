import Verif.Model.Basic
/-!
# The background thread: src/core/io_looper.rs

At the granularity of its lock and channel operations.  `std::sync::mpsc` and `Mutex` are dependencies:
the channel is a FIFO list whose `recv` fails exactly when it is empty and the sender is gone, `send` fails
exactly when the receiver is gone, and a critical section is one step.
-/

namespace Mmkv.Looper

/-- `Signal`, src/core/io_looper.rs:14-17. -/
inductive Signal where
  | next | quit
deriving DecidableEq, Repr

/-- Where the thread spawned in `Executor::new` is, src/core/io_looper.rs:112-131: waiting in `recv` (113), about
to take the queue lock and swap (120-122), in the loop over its buffer (123-125), returned (117, 128), unwinding
from a panic in a job (the receiver still exists), or gone after a panic (the receiver is dropped). -/
inductive IoPc where
  | recv | swap | run | exited | unwinding | dead
deriving DecidableEq, Repr

/-- `IOLooper` + `Executor` (src/core/io_looper.rs:21-29) and the state of the thread, generic in the job type
`J`, the callback state `T` and an oracle type `O` for what jobs leave open (hash map order).  `owed` counts
`post` calls between `push_back` and `send`.  `pushed`, `late`, `ran` are ghosts: jobs pushed while the sender
existed, jobs pushed after `quit` (whose `post` returns `Err`), jobs started, each in order. -/
structure St (O J T : Type) where
  queue : List J := []
  chan : List Signal := []
  sender : Bool := true
  owed : Nat := 0
  buf : List J := []
  io : IoPc := .recv
  cb : T
  pushed : List J := []
  late : List J := []
  ran : List (O × J) := []
deriving Repr

variable {O J T : Type}

/-- `IOLooper::new`, src/core/io_looper.rs:32-39. -/
def new (cb : T) : St O J T := { cb := cb }

/-- First half of `post`, src/core/io_looper.rs:60-66: `push_back` under the lock.  The queue lock cannot be
poisoned: no code that holds it panics. -/
def push (s : St O J T) (j : J) : St O J T :=
  if s.sender then { s with queue := s.queue ++ [j], pushed := s.pushed ++ [j], owed := s.owed + 1 }
  else { s with queue := s.queue ++ [j], late := s.late ++ [j] }

/-- Second half of `post`, src/core/io_looper.rs:68-77: `Ok` (true) or `Err(IOError)` (false). -/
def send (s : St O J T) : St O J T × Bool :=
  if s.sender then
    if s.io = .dead ∨ s.io = .exited then ({ s with owed := s.owed - 1 }, false)
    else ({ s with chan := s.chan ++ [.next], owed := s.owed - 1 }, true)
  else (s, false)

/-- First half of `quit`, src/core/io_looper.rs:41-49: take the sender, send `Quit`. -/
def quitSend (s : St O J T) : St O J T × Bool :=
  if s.sender then
    if s.io = .dead ∨ s.io = .exited then ({ s with sender := false }, false)
    else ({ s with chan := s.chan ++ [.quit], sender := false }, true)
  else (s, true)

/-- `drop(self.sender.take())`, src/core/io_looper.rs:96. -/
def dropSender (s : St O J T) : St O J T := { s with sender := false }

/-- One step of the thread; `none` when it is blocked in `recv` or finished. -/
def ioStep (exec : O → J → T → Run T) (o : O) (s : St O J T) : Option (St O J T) :=
  match s.io with
  | .recv =>
    match s.chan with
    | .next :: rest => some { s with io := .swap, chan := rest }
    | .quit :: rest => some { s with io := .exited, chan := rest }
    | [] => if s.sender then none else some { s with io := .exited }
  | .swap => some { s with buf := s.queue, queue := s.buf, io := .run }
  | .run =>
    match s.buf with
    | [] => some { s with io := .recv }
    | j :: rest =>
      match exec o j s.cb with
      | .done cb => some { s with cb := cb, buf := rest, ran := s.ran ++ [(o, j)] }
      | .panic cb => some { s with cb := cb, buf := rest, ran := s.ran ++ [(o, j)], io := .unwinding }
  | .unwinding => some { s with io := .dead }
  | .exited => none
  | .dead => none

/-- What can happen to a looper that any number of threads use: the two halves of a `post`, `quit` or the drop
(both need exclusive access, so no `post` is under way), a step of the thread. -/
inductive Ev (O J : Type) where
  | push (j : J)
  | send
  | quit
  | drop
  | io (o : O)

/-- Transition; `none` when the event is impossible. -/
def step (exec : O → J → T → Run T) (s : St O J T) : Ev O J → Option (St O J T)
  | .push j => some (push s j)
  | .send => if 0 < s.owed then some (send s).1 else none
  | .quit => if s.owed = 0 then some (quitSend s).1 else none
  | .drop => if s.owed = 0 then some (dropSender s) else none
  | .io o => ioStep exec o s

/-- A history of events. -/
def run (exec : O → J → T → Run T) : St O J T → List (Ev O J) → Option (St O J T)
  | s, [] => some s
  | s, e :: es => match step exec s e with
    | some s' => run exec s' es
    | none => none

/-- Executing jobs one after the other, stopping at a panic. -/
def execAll (exec : O → J → T → Run T) : T → List (O × J) → Run T
  | t, [] => .done t
  | t, (o, j) :: rest => (exec o j t).andThen fun t => execAll exec t rest

end Mmkv.Looper
