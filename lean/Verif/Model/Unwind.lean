import Verif.Model.World
/-!
# Handles going out of scope: src/mmkv.rs:43-55, src/core/io_looper.rs:93-104

A thread drops the `MMKV` values it owns at the end of their scope, or while it unwinds from a panic.  Dropping one means `Drop::drop`
(src/mmkv.rs:43-55), then the release of its `Arc`; releasing the last one drops the `IOLooper`, which joins the background thread and
unwraps the result (src/core/io_looper.rs:98-99).  Rust: a panic that leaves a destructor while its thread is unwinding aborts the
process; one that leaves a destructor otherwise makes the thread unwind.
-/

namespace Mmkv
variable {ι : Type}

/-- `IOLooper::drop` when the sender is gone, src/core/io_looper.rs:98-101: `none` while it waits, `some true` when it is through,
`some false` when `join().unwrap()` panics because the background thread has died.  If `quit` has already taken the join handle
(src/core/io_looper.rs:50), there is nothing to join. -/
def Inst.joinResult (s : Inst ι) : Option Bool :=
  if s.joined then some true
  else match s.lp.io with
    | .exited => some true
    | .dead => some false
    | _ => none

/-- What a thread does to drop a handle: `Drop::drop`, then the release of the `Arc`. -/
inductive Task where
  | unlist (h : Nat)
  | release (h : Nat)
deriving DecidableEq, Repr

/-- The tasks of dropping some handles, one after the other. -/
def dropTasks (hs : List Nat) : List Task := hs.flatMap fun h => [.unlist h, .release h]

/-- A task, the events of the process meanwhile, and whether the task panics.  While the thread waits in `join`, everybody else goes on. -/
inductive TaskRun (S : Sys ι) : World ι → Task → List (WEv ι) → World ι → Bool → Prop
  | unlist {w w' : World ι} {h : Nat} {r : WRes} (hs : w.step S (.drop1 h) = some (w', r)) :
      TaskRun S w (.unlist h) [.drop1 h] w' (r == .panic)
  | shared {w w' : World ι} {h : Nat} {hd : Handle} {r : WRes} (hh : w.handles[h]? = some hd) (hs : w.step S (.drop2 h) = some (w', r))
      (hmore : w'.strong hd.obj ≠ 0) : TaskRun S w (.release h) [.drop2 h] w' false
  | last {w w1 w' : World ι} {h : Nat} {hd : Handle} {r : WRes} {es : List (WEv ι)} {rs : List WRes} {ob : Obj ι} {b : Bool}
      (hh : w.handles[h]? = some hd) (hs : w.step S (.drop2 h) = some (w1, r)) (hlast : w1.strong hd.obj = 0)
      (hwait : w1.run S es = some (w', rs)) (hob : w'.objs[hd.obj]? = some ob) (hj : ob.inst.joinResult = some b) :
      TaskRun S w (.release h) (.drop2 h :: es) w' (!b)

/-- How the thread goes on. -/
inductive ThreadEnd where
  | continues
  /-- it is unwinding -/
  | panics
  /-- the whole process is gone -/
  | aborts
deriving DecidableEq, Repr

/-- `ScopeEnd S w unwinding tasks es w' e`: a thread, unwinding or not, performs its tasks, other threads doing anything in between; `es`
are the events of the whole process meanwhile. -/
inductive ScopeEnd (S : Sys ι) : World ι → Bool → List Task → List (WEv ι) → World ι → ThreadEnd → Prop
  | through {w : World ι} : ScopeEnd S w false [] [] w .continues
  | unwound {w : World ι} : ScopeEnd S w true [] [] w .panics
  | others {w w1 w' : World ι} {p : Bool} {ts : List Task} {e : ThreadEnd} {es es' : List (WEv ι)} {rs : List WRes}
      (h : w.run S es = some (w1, rs)) (rest : ScopeEnd S w1 p ts es' w' e) : ScopeEnd S w p ts (es ++ es') w' e
  | fine {w w1 w' : World ι} {p : Bool} {t : Task} {ts : List Task} {e : ThreadEnd} {es es' : List (WEv ι)}
      (h : TaskRun S w t es w1 false) (rest : ScopeEnd S w1 p ts es' w' e) : ScopeEnd S w p (t :: ts) (es ++ es') w' e
  | panicked {w w1 w' : World ι} {t : Task} {ts : List Task} {e : ThreadEnd} {es es' : List (WEv ι)}
      (h : TaskRun S w t es w1 true) (rest : ScopeEnd S w1 true ts es' w' e) : ScopeEnd S w false (t :: ts) (es ++ es') w' e
  | aborted {w w1 : World ι} {t : Task} {ts : List Task} {es : List (WEv ι)} (h : TaskRun S w t es w1 true) :
      ScopeEnd S w true (t :: ts) es w1 .aborts

end Mmkv
