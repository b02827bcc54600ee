import Verif.Model.Unwind
/-!
# A process that forks: what is left of src/core/io_looper.rs:112-131 in the child

`fork(2)` gives the child a copy of the memory (the registry, the handles, the stores, the queues and channels) and the same files, but
only the thread that called it.  The background threads spawned by `Executor::new` (src/core/io_looper.rs:112) for the stores that were
open do not exist in the child.  A history of the child is thus a history of the process that goes on from the state at the fork, in
which the background threads of the inherited stores take no step.

Simplifications: no other thread is inside a critical section at the moment of the fork (a lock it held would stay locked in the child);
the parent does not touch the files meanwhile (what the *child* does to them is what is stated).
-/

namespace Mmkv
variable {ι : Type}

/-- An event that can happen in a child which inherited the first `n` stores (src/core/io_looper.rs:112: their threads are not there). -/
def WEv.InChild (n : Nat) : WEv ι → Prop
  | .io o _ => n ≤ o
  | _ => True

/-- The event opens a directory on this data file afresh, src/mmkv.rs:83-111. -/
def WEv.OpensAnew (S : Sys ι) (g : Nat) : WEv ι → Prop
  | .create dir _ => S.fileOf dir = g
  | _ => False

/-- A store in normal use between two calls: the write lock (src/mmkv.rs:181-220) is free and not poisoned, and the background thread
is there to take signals (src/core/io_looper.rs:60-77). -/
structure Inst.Serving (s : Inst ι) : Prop where
  idle : s.phase = .idle
  valid : s.valid = true
  lock : s.poisoned = false
  notJoined : s.joined = false
  sender : s.lp.sender = true
  alive : s.lp.io ≠ .exited ∧ s.lp.io ≠ .dead

end Mmkv
