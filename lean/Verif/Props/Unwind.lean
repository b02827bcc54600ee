import Verif.Model.Unwind
import Verif.Props.Process
import Verif.Props.Quota
/-!
# C81: a failed call can be contained
-/

namespace Mmkv
open Spec World Inst
variable {ι : Type}

theorem poisoned_run {S : Sys ι} (es : List (WEv ι)) {w w' : World ι} {rs : List WRes} (hp : w.poisoned = true)
    (h : w.run S es = some (w', rs)) : w'.poisoned = true := by
  induction es generalizing w rs with
  | nil => simp only [World.run, Option.some.injEq, Prod.mk.injEq] at h; rw [← h.1]; exact hp
  | cons e es ih =>
    unfold World.run at h
    split at h
    · cases h
    rename_i w1 r h1
    split at h
    · cases h
    rename_i w2 rs2 h2
    injection h with h; injection h with h3 h4; subst h3
    exact ih (poisoned_step hp h1).1 h2

theorem taskRun_poisoned {S : Sys ι} {w w' : World ι} {t : Task} {es : List (WEv ι)} {b : Bool} (hp : w.poisoned = true)
    (h : TaskRun S w t es w' b) :
    w'.poisoned = true := by
  cases h with
  | unlist hs => exact (poisoned_step hp hs).1
  | shared _ hs _ => exact (poisoned_step hp hs).1
  | last _ hs _ hw _ _ => exact poisoned_run _ (poisoned_step hp hs).1 hw

/-- Dropping any handle panics once the registry's lock is poisoned, whatever happens in between; while unwinding that is the end. -/
theorem poisoned_aborts {S : Sys ι} {w w' : World ι} {h : Nat} {ts : List Task} {es : List (WEv ι)} {e : ThreadEnd}
    (hp : w.poisoned = true) (hs : ScopeEnd S w true (.unlist h :: ts) es w' e) : e = .aborts := by
  generalize hb : true = b at hs
  generalize hl : Task.unlist h :: ts = l at hs
  induction hs with
  | through => cases hl
  | unwound => cases hl
  | others h1 _ ih => exact ih (poisoned_run _ hp h1) hb hl
  | fine h1 _ _ =>
    injection hl with hl _; subst hl
    generalize hf : false = f at h1
    cases h1 with
    | unlist hs =>
      have := (poisoned_step hp hs).2 (.inr (.inr ⟨_, rfl⟩))
      subst this
      cases hf
  | panicked => cases hb
  | aborted => rfl

/-- **C81 is false of this program**, and badly: when `new` panics - in any state of the process, for whatever reason: a path that is no
directory, a read-only one, a damaged file, a malformed key - in a thread that owns a handle of any directory, then the unwinding that
the panic starts drops that handle, its destructor panics in turn, and the process is aborted.  `catch_unwind` around `new` does not
help if the handle is inside its scope. -/
theorem C81_refuted {S : Sys ι} {w w1 w' : World ι} {dir : String} {i : ι} (hnew : w.step S (.create dir i) = some (w1, .panic))
    {h : Nat} {hs : List Nat} {es : List (WEv ι)} {e : ThreadEnd} (hend : ScopeEnd S w1 true (dropTasks (h :: hs)) es w' e) : e = .aborts := by
  have hp : w1.poisoned = true := by
    simp only [World.step] at hnew
    split at hnew
    · rename_i hp; injection hnew with hnew; injection hnew with h1 _; subst h1; exact hp
    split at hnew
    · simp [World.addHandle] at hnew
    split at hnew
    · injection hnew with hnew; injection hnew with h1 _; subst h1; rfl
    split at hnew
    · injection hnew with hnew; injection hnew with h1 _; subst h1; rfl
    split at hnew
    · injection hnew with hnew; injection hnew with h1 _; subst h1; rfl
    · simp [World.addHandle] at hnew
  exact poisoned_aborts hp hend

/-- The strings name different directories; "bad" is none. -/
def manyDirs : Sys Unit := { codecs := plain, page := 64, fileOf := String.length, dirOk := fun d => d != "bad" }

/-- The hypotheses of `C81_refuted` are met: a thread that owns a handle of "d" calls `new` on "bad". -/
example : ∃ w rs w1 w', (start (fun _ => none) []).run manyDirs ([.create "d" ()] ++ wput 0 0 "d" "k" 7) = some (w, rs) ∧
    rs = [.handle 0, .quiet, .quiet, .ret (.ok ())] ∧ w.step manyDirs (.create "bad" ()) = some (w1, .panic) ∧
    ScopeEnd manyDirs w1 true (dropTasks [0]) [.drop1 0] w' .aborts := by
  have h : (match (start (fun _ => none) []).run manyDirs ([.create "d" ()] ++ wput 0 0 "d" "k" 7) with
    | none => false
    | some (w, rs) => decide (rs = [.handle 0, .quiet, .quiet, .ret (.ok ())]) && match w.step manyDirs (.create "bad" ()) with
      | none => false
      | some (w1, r1) => decide (r1 = .panic) && match w1.step manyDirs (.drop1 0) with
        | none => false
        | some (_, r2) => decide (r2 = .panic)) = true := by decide +kernel
  split at h
  · cases h
  rename_i w rs hr
  rw [Bool.and_eq_true] at h
  obtain ⟨h1, h⟩ := h
  split at h
  · cases h
  rename_i w1 r1 hs1
  simp only [Bool.and_eq_true] at h
  obtain ⟨h2, h⟩ := h
  split at h
  · cases h
  rename_i w2 r2 hs2
  simp only [decide_eq_true_eq] at h1 h2 h
  subst h2 h
  exact ⟨w, rs, w1, w2, hr, h1, hs1, .aborted (.unlist hs2)⟩

/-- The same without a panic under way: after a failed `new` anywhere in the process, a thread that just lets a handle go out of scope
panics, and is aborted if it owns two. -/
theorem C81_refuted_later {S : Sys ι} {w w' : World ι} (hp : w.poisoned = true) {h : Nat} {hs : List Nat} {es : List (WEv ι)} {e : ThreadEnd}
    (hend : ScopeEnd S w false (dropTasks (h :: hs)) es w' e) : e ≠ .continues ∧ (hs ≠ [] → e = .aborts) := by
  have key : ∀ {w w' : World ι} {b : Bool} {l : List Task} {es : List (WEv ι)} {e : ThreadEnd}, ScopeEnd S w b l es w' e → w.poisoned = true → b = true →
      (∃ k ts, l = .unlist k :: ts) ∨ (∃ g k ts, l = .release g :: .unlist k :: ts) → e = .aborts := by
    intro w w' b l es e hs
    induction hs with
    | through => intro _ hb; cases hb
    | unwound => rintro _ _ (⟨_, _, h⟩ | ⟨_, _, _, h⟩) <;> cases h
    | others h1 _ ih => intro hp hb hl; exact ih (poisoned_run _ hp h1) hb hl
    | @fine w w1 w' p t ts e es1 es2 h1 rest ih =>
      rintro hp hb (⟨k, ts', hl⟩ | ⟨g, k, ts', hl⟩)
      · injection hl with h2 h3; subst h2 h3 hb
        exact poisoned_aborts hp (.fine h1 rest)
      · injection hl with h2 h3; subst h2 h3 hb
        exact ih (taskRun_poisoned hp h1) rfl (.inl ⟨k, ts', rfl⟩)
    | panicked _ _ _ => intro _ hb; cases hb
    | aborted _ => intro _ _ _; rfl
  have hcont : ∀ {w w' : World ι} {b : Bool} {l : List Task} {es : List (WEv ι)} {e : ThreadEnd}, ScopeEnd S w b l es w' e → b = true → e ≠ .continues := by
    intro w w' b l es e hs
    induction hs with
    | through => intro hb; cases hb
    | unwound => intro _ h; cases h
    | others _ _ ih => exact ih
    | fine _ _ ih => exact ih
    | panicked _ _ ih => intro _; exact ih rfl
    | aborted _ => intro _ h; cases h
  have first : ∀ {w w' : World ι} {b : Bool} {l : List Task} {es : List (WEv ι)} {e : ThreadEnd}, ScopeEnd S w b l es w' e → w.poisoned = true → b = false →
      l = dropTasks (h :: hs) → e ≠ .continues ∧ (hs ≠ [] → e = .aborts) := by
    intro w w' b l es e hsc
    induction hsc with
    | through => intro _ _ hl; simp [dropTasks] at hl
    | unwound => intro _ hb; cases hb
    | others h1 _ ih => intro hp hb hl; exact ih (poisoned_run _ hp h1) hb hl
    | fine h1 _ _ =>
      intro hp _ hl
      simp only [dropTasks, List.flatMap_cons, List.cons_append, List.cons.injEq] at hl
      obtain ⟨rfl, _⟩ := hl
      generalize hf : false = f at h1
      cases h1 with
      | unlist hs =>
        have := (poisoned_step hp hs).2 (.inr (.inr ⟨_, rfl⟩))
        subst this
        cases hf
    | panicked h1 rest _ =>
      intro hp _ hl
      simp only [dropTasks, List.flatMap_cons, List.cons_append, List.nil_append, List.cons.injEq] at hl
      obtain ⟨rfl, rfl⟩ := hl
      refine ⟨hcont rest rfl, fun hne => ?_⟩
      cases hs with
      | nil => exact absurd rfl hne
      | cons k hs =>
        exact key rest (taskRun_poisoned hp h1) rfl (.inr ⟨_, k, _, rfl⟩)
    | aborted => intro _ hb; cases hb
  exact first hend hp rfl rfl

/-! ### Closing a store whose background thread has died -/

/-- A put through handle `h` of a value of `n` bytes, up to its return. -/
def bigPut (h o : Nat) (dir k : String) (n : Nat) : List (WEv Unit) :=
  [.call h dir (.put k ⟨6, List.replicate n 7⟩), .cont o (), .cont o ()]

/-- Nothing panicked before: a put of a value larger than a page returns `Ok`, the background thread dies of it, and then the drop of the
only handle panics. -/
theorem C81_refuted_close : ∃ w rs w', (start (fun _ => none) []).run oneDir ([.create "d" ()] ++ bigPut 0 0 "d" "k" 200) = some (w, rs) ∧
    rs = [.handle 0, .quiet, .quiet, .ret (.ok ())] ∧
    ScopeEnd oneDir w false (dropTasks [0]) ([.drop1 0, .drop2 0] ++ List.replicate 4 (.io 0 id)) w' .panics := by
  have h : (match (start (fun _ => none) []).run oneDir ([.create "d" ()] ++ bigPut 0 0 "d" "k" 200) with
    | none => false
    | some (w, rs) => decide (rs = [.handle 0, .quiet, .quiet, .ret (.ok ())]) && match w.step oneDir (.drop1 0) with
      | none => false
      | some (w1, r1) => decide (r1 = .quiet) && (match w1.handles[0]? with
        | none => false
        | some hd => decide (hd.obj = 0)) && match w1.step oneDir (.drop2 0) with
        | none => false
        | some (w2, _) => decide (w2.strong 0 = 0) && match w2.run oneDir (List.replicate 4 (.io 0 id)) with
          | none => false
          | some (w3, _) => match w3.objs[0]? with
            | none => false
            | some ob => decide (ob.inst.joinResult = some false)) = true := by decide +kernel
  split at h
  · cases h
  rename_i w rs hr
  rw [Bool.and_eq_true] at h
  obtain ⟨h1, h⟩ := h
  split at h
  · cases h
  rename_i w1 r1 hs1
  simp only [Bool.and_eq_true] at h
  obtain ⟨⟨h2, h4⟩, h⟩ := h
  split at h4
  · cases h4
  rename_i hd hh
  split at h
  · cases h
  rename_i w2 r2 hs2
  rw [Bool.and_eq_true] at h
  obtain ⟨h3, h⟩ := h
  split at h
  · cases h
  rename_i w3 rs3 hr3
  split at h
  · cases h
  rename_i ob hob
  simp only [decide_eq_true_eq] at h1 h2 h3 h4 h
  subst h2
  exact ⟨w, rs, w3, hr, h1, .fine (es := [.drop1 0]) (.unlist hs1)
    (.panicked (es := .drop2 0 :: List.replicate 4 (.io 0 id)) (es' := [])
      (.last hh hs2 (by rw [h4]; exact h3) hr3 (by rw [h4]; exact hob) h) .unwound)⟩

/-! ### What is true -/

theorem wrun_append {S : Sys ι} (es es' : List (WEv ι)) {w w1 w2 : World ι} {rs rs' : List WRes} (h : w.run S es = some (w1, rs))
    (h' : w1.run S es' = some (w2, rs')) : w.run S (es ++ es') = some (w2, rs ++ rs') := by
  induction es generalizing w rs with
  | nil => simp only [World.run, Option.some.injEq, Prod.mk.injEq] at h; obtain ⟨rfl, rfl⟩ := h; simpa using h'
  | cons e es ih =>
    unfold World.run at h
    split at h
    · cases h
    rename_i w3 r h1
    split at h
    · cases h
    rename_i w4 rs4 h2
    injection h with h; injection h with h3 h4; subst h3 h4
    simp only [List.cons_append, World.run, h1, ih h2]

theorem calmRun_prefix {S : Sys ι} (es : List (WEv ι)) {es' : List (WEv ι)} {w : World ι} (h : CalmRun S w (es ++ es')) : CalmRun S w es := by
  induction es generalizing w with
  | nil => trivial
  | cons e es ih => exact ⟨h.1, fun w' r hs => ih (h.2 w' r hs)⟩

theorem taskRun_run {S : Sys ι} {w w' : World ι} {t : Task} {es : List (WEv ι)} {b : Bool} (h : TaskRun S w t es w' b) :
    ∃ rs, w.run S es = some (w', rs) := by
  cases h with
  | unlist hs => exact ⟨_, by simp only [World.run, hs]; rfl⟩
  | shared _ hs _ => exact ⟨_, by simp only [World.run, hs]; rfl⟩
  | last _ hs _ hw _ _ => exact ⟨_, by simp only [World.run, hs, hw]; rfl⟩

theorem scopeEnd_run {S : Sys ι} {w w' : World ι} {p : Bool} {ts : List Task} {es : List (WEv ι)} {e : ThreadEnd}
    (h : ScopeEnd S w p ts es w' e) : ∃ rs, w.run S es = some (w', rs) := by
  induction h with
  | through => exact ⟨[], rfl⟩
  | unwound => exact ⟨[], rfl⟩
  | others h1 _ ih => obtain ⟨rs', h'⟩ := ih; exact ⟨_, wrun_append _ _ h1 h'⟩
  | fine h1 _ ih => obtain ⟨rs', h'⟩ := ih; obtain ⟨rs1, h1⟩ := taskRun_run h1; exact ⟨_, wrun_append _ _ h1 h'⟩
  | panicked h1 _ ih => obtain ⟨rs', h'⟩ := ih; obtain ⟨rs1, h1⟩ := taskRun_run h1; exact ⟨_, wrun_append _ _ h1 h'⟩
  | aborted h1 => exact taskRun_run h1

/-- Only a `new` that panics poisons the registry's lock. -/
theorem poison_step {S : Sys ι} {w w' : World ι} {e : WEv ι} {r : WRes} (hp : w.poisoned = false) (h : w.step S e = some (w', r))
    (hn : ∀ d i, e = .create d i → r ≠ .panic) : w'.poisoned = false := by
  cases hw : w'.poisoned with
  | false => rfl
  | true =>
    exfalso
    cases e with
    | create d i =>
      refine hn d i rfl ?_
      simp only [World.step, hp] at h
      split at h
      · rename_i hc; cases hc
      split at h
      · injection h with h; injection h with h1 h2; rw [← h1] at hw; simp [hp] at hw
      split at h
      · injection h with h; injection h with h1 h2; exact h2.symm
      split at h
      · injection h with h; injection h with h1 h2; exact h2.symm
      split at h
      · injection h with h; injection h with h1 h2; exact h2.symm
      · injection h with h; injection h with h1 h2; rw [← h1] at hw
        simp [(touch_objs w S.page (S.fileOf d)).2.2.2, hp] at hw
    | lookup d =>
      simp only [World.step, hp] at h
      split at h
      · rename_i hc; cases hc
      split at h
      · injection h with h; injection h with h1 h2; rw [← h1] at hw; simp [hp] at hw
      · injection h with h; injection h with h1 h2; rw [← h1, hp] at hw; cases hw
    | drop1 k =>
      simp only [World.step, hp] at h
      split at h
      · cases h
      split at h
      · cases h
      split at h
      · rename_i hc; cases hc
      · injection h with h; injection h with h1 h2; rw [← h1] at hw; simp at hw
    | drop2 k =>
      simp only [World.step] at h
      split at h
      · cases h
      split at h
      · cases h
      split at h
      · rw [Option.map_eq_some_iff] at h
        obtain ⟨⟨w1, r1⟩, h1, h2⟩ := h
        injection h2 with h2 h3; subst h2
        obtain ⟨_, _, _, _, rfl⟩ := stepObj_eq h1
        simp [hp] at hw
      · injection h with h; injection h with h1 h2; rw [← h1] at hw; simp [hp] at hw
    | call k d m =>
      have := step_poison S w true (e := .call k d m) (.inl ⟨_, _, _, rfl⟩)
      simp only [World.step] at h
      split at h
      · cases h
      split at h
      · cases h
      rw [Option.map_eq_some_iff] at h
      obtain ⟨⟨w1, r1⟩, h1, h2⟩ := h
      injection h2 with h2 h3; subst h2
      obtain ⟨_, _, _, _, rfl⟩ := stepObj_eq h1
      simp [hp] at hw
    | io o ord =>
      simp only [World.step] at h
      split at h
      · cases h
      rw [Option.map_eq_some_iff] at h
      obtain ⟨⟨w1, r1⟩, h1, h2⟩ := h
      injection h2 with h2 h3; subst h2
      obtain ⟨_, _, _, _, rfl⟩ := stepObj_eq h1
      simp [hp] at hw
    | cont o i =>
      simp only [World.step] at h
      split at h
      · cases h
      rw [Option.map_eq_some_iff] at h
      obtain ⟨⟨w1, r1⟩, h1, h2⟩ := h
      injection h2 with h2 h3; subst h2
      split at h1
      · unfold World.reopen at h1
        split at h1
        · cases h1
        have ht := (touch_objs w S.page (S.fileOf ‹Obj ι›.dir)).2.2.2
        generalize w.touch S.page (S.fileOf ‹Obj ι›.dir) = tw at h1 ht
        obtain ⟨w2, n⟩ := tw
        simp only at h1 ht
        injection h1 with h1; injection h1 with h1 h4; subst h1
        simp only at hw
        rw [ht, hp] at hw
        cases hw
      · obtain ⟨_, _, _, _, rfl⟩ := stepObj_eq h1
        simp [hp] at hw

theorem poison_run {S : Sys ι} (es : List (WEv ι)) {w w' : World ι} {rs : List WRes} (hp : w.poisoned = false)
    (h : w.run S es = some (w', rs)) (hn : ∀ (n : Nat) (d : String) (i : ι), es[n]? = some (.create d i) → rs[n]? ≠ some .panic) : w'.poisoned = false := by
  induction es generalizing w rs with
  | nil => simp only [World.run, Option.some.injEq, Prod.mk.injEq] at h; rw [← h.1]; exact hp
  | cons e es ih =>
    unfold World.run at h
    split at h
    · cases h
    rename_i w1 r h1
    split at h
    · cases h
    rename_i w2 rs2 h2
    injection h with h; injection h with h3 h4; subst h3 h4
    refine ih (poison_step hp h1 fun d i he => ?_) h2 fun n d i hi => ?_
    · have := hn 0 d i (by simp [he])
      simpa using this
    · have := hn (n + 1) d i (by simpa using hi)
      simpa using this

theorem no_dead {S : Sys Unit} {page K : Nat} (hp : Plain S page) {names : Nat → Option Nat} {inodes : List Bytes}
    (hg : GoodNames names inodes) {S0 : Nat → Store}
    (h0 : ∀ f, FileMap page K (((start names inodes : World Unit).fileAt f).getD []) (S0 f))
    {es : List (WEv Unit)} {w : World Unit} {rs : List WRes} (hrun : World.run S (start names inodes) es = some (w, rs))
    (hfit : ∀ e ∈ es, e.Fits page) (hcalm : CalmRun S (start names inodes) es)
    (hroom : page * (K + es.length) + 8 < 2 ^ 64) {o : Nat} {ob : Obj Unit} (ho : w.objs[o]? = some ob) :
    ob.inst.joinResult ≠ some false := by
  have hnd : ob.inst.lp.io ≠ .dead := by
    rcases (plain_process hp hg h0 hrun hfit hcalm hroom).2 (S.fileOf ob.dir) with ⟨h1, _⟩ | ⟨q, x, pre, post, h1, h2, h3, h4, h5, _⟩
    · exact absurd rfl (h1 o ob ho)
    · by_cases hq : o = q
      · subst hq; rw [ho] at h1; injection h1 with h1; subst h1; exact h5.alive.2
      · rw [(h3 o ob hq ho rfl).1.2]; decide
  intro hj
  unfold Inst.joinResult at hj
  split at hj
  · cases hj
  split at hj
  · cases hj
  · rename_i hd; exact hnd hd
  · cases hj

theorem unpoisoned_before {S : Sys ι} {es : List (WEv ι)} {w w' : World ι} {rs : List WRes} (h : w.run S es = some (w', rs))
    (hp : w'.poisoned = false) : w.poisoned = false := by
  cases hw : w.poisoned with
  | false => rfl
  | true => rw [poisoned_run es hw h] at hp; cases hp

theorem taskRun_quiet {S : Sys Unit} {page K : Nat} (hp : Plain S page) {names : Nat → Option Nat} {inodes : List Bytes}
    (hg : GoodNames names inodes) {S0 : Nat → Store}
    (h0 : ∀ f, FileMap page K (((start names inodes : World Unit).fileAt f).getD []) (S0 f))
    {es0 es : List (WEv Unit)} {w w' : World Unit} {rs0 : List WRes} (hrun0 : World.run S (start names inodes) es0 = some (w, rs0))
    {t : Task} {b : Bool} (ht : TaskRun S w t es w' b)
    (hfit : ∀ e ∈ es0 ++ es, e.Fits page) (hcalm : CalmRun S (start names inodes) (es0 ++ es))
    (hroom : page * (K + (es0 ++ es).length) + 8 < 2 ^ 64) (hpo : w'.poisoned = false) : b ≠ true := by
  intro hb
  cases ht with
  | @unlist _ k r hs =>
    rw [beq_iff_eq] at hb
    subst hb
    have hw := unpoisoned_before (S := S) (w := w) (es := [.drop1 k]) (rs := [.panic]) (by simp only [World.run, hs]) hpo
    simp only [World.step, hw] at hs
    split at hs
    · cases hs
    split at hs
    · cases hs
    split at hs
    · rename_i hc; cases hc
    · injection hs with hs; injection hs with _ hs; cases hs
  | shared => cases hb
  | last hh hs hl hw hob hj =>
    rw [Bool.not_eq_true'] at hb
    subst hb
    exact no_dead hp hg h0 (wrun_append _ _ hrun0 (by simp only [World.run, hs, hw]; rfl)) hfit hcalm hroom hob hj

/-- **C81**, what is true: in a process of plain stores - any number of directories, handles, threads, calls - whose records fit a page
each and in which no `new` has panicked so far and none does meanwhile, a thread that drops any handles it owns, whatever the others do, at
the end of a scope or while it unwinds from a panic of its own, gets through them: it goes on as it was.  (As everywhere, a directory
is only opened anew when earlier stores on its file have finished closing.)  Missing from C81: a panicking `new` (`C81_refuted`,
`C81_refuted_later`), a dead background thread (`C81_refuted_close`). -/
theorem C81_partial {S : Sys Unit} {page K : Nat} (hp : Plain S page) {names : Nat → Option Nat} {inodes : List Bytes}
    (hg : GoodNames names inodes) {S0 : Nat → Store}
    (h0 : ∀ f, FileMap page K (((start names inodes : World Unit).fileAt f).getD []) (S0 f))
    {es0 es : List (WEv Unit)} {w w' : World Unit} {rs0 rs : List WRes}
    (hrun0 : World.run S (start names inodes) es0 = some (w, rs0))
    {unwinding : Bool} {hs : List Nat} {e : ThreadEnd} (hend : ScopeEnd S w unwinding (dropTasks hs) es w' e)
    (hrun : World.run S (start names inodes) (es0 ++ es) = some (w', rs))
    (hnew : ∀ (n : Nat) (d : String) (i : Unit), (es0 ++ es)[n]? = some (.create d i) → rs[n]? ≠ some .panic)
    (hfit : ∀ e ∈ es0 ++ es, e.Fits page) (hcalm : CalmRun S (start names inodes) (es0 ++ es))
    (hroom : page * (K + (es0 ++ es).length) + 8 < 2 ^ 64) :
    e = if unwinding then .panics else .continues := by
  have hpo : w'.poisoned = false := poison_run _ rfl hrun hnew
  clear hrun hnew rs
  generalize dropTasks hs = ts at hend
  induction hend generalizing es0 rs0 with
  | through => rfl
  | unwound => rfl
  | others h1 _ ih =>
    rw [← List.append_assoc] at hfit hcalm hroom
    exact ih (wrun_append _ _ hrun0 h1) hfit hcalm hroom hpo
  | fine h1 _ ih =>
    obtain ⟨_, h1⟩ := taskRun_run h1
    rw [← List.append_assoc] at hfit hcalm hroom
    exact ih (wrun_append _ _ hrun0 h1) hfit hcalm hroom hpo
  | panicked h1 rest _ =>
    exfalso
    obtain ⟨_, hr⟩ := scopeEnd_run rest
    rw [← List.append_assoc] at hfit hcalm hroom
    exact taskRun_quiet hp hg h0 hrun0 h1 (fun e he => hfit e (List.mem_append_left _ he)) (calmRun_prefix _ hcalm)
      (Nat.lt_of_le_of_lt (Nat.add_le_add_right (Nat.mul_le_mul_left _ (by simp)) _) hroom)
      (unpoisoned_before hr hpo) rfl
  | aborted h1 =>
    exact absurd rfl (taskRun_quiet hp hg h0 hrun0 h1 hfit hcalm hroom hpo)

/-- Handles of two directories and a put through each. -/
def unwindPuts : List (WEv Unit) := [.create "d" (), .create "ee" ()] ++ wput 0 0 "d" "k" 7 ++ wput 1 1 "ee" "k" 8

/-- Both handles are dropped while the background threads finish. -/
def unwindDrops : List (WEv Unit) :=
  [.drop1 1] ++ (.drop2 1 :: List.replicate 5 (.io 1 id) ++ ([.drop1 0] ++ (.drop2 0 :: List.replicate 5 (.io 0 id) ++ [])))

/-- The hypotheses of `C81_partial` are met: a thread with handles of two directories, with values put through both, unwinds from a panic
of its own. -/
example : ∃ w w' rs0 rs, Plain manyDirs 64 ∧ GoodNames (fun _ => none) [] ∧
    (∀ f, FileMap 64 0 (((start (fun _ => none) [] : World Unit).fileAt f).getD []) Store.empty) ∧
    (start (fun _ => none) []).run manyDirs unwindPuts = some (w, rs0) ∧
    ScopeEnd manyDirs w true (dropTasks [1, 0]) unwindDrops w' .panics ∧
    (start (fun _ => none) []).run manyDirs (unwindPuts ++ unwindDrops) = some (w', rs) ∧ .panic ∉ rs ∧
    (∀ e ∈ unwindPuts ++ unwindDrops, e.Fits 64) ∧ CalmRun manyDirs (start (fun _ => none) []) (unwindPuts ++ unwindDrops) ∧
    64 * (0 + (unwindPuts ++ unwindDrops).length) + 8 < 2 ^ 64 := by
  have h : (match (start (fun _ => none) []).run manyDirs unwindPuts with
    | none => false
    | some (w, rs0) => decide (.panic ∉ rs0) && match w.step manyDirs (.drop1 1) with
      | none => false
      | some (w1, r1) => decide (r1 = .quiet) && (match w1.handles[1]? with
        | none => false
        | some hd => decide (hd.obj = 1)) && match w1.step manyDirs (.drop2 1) with
        | none => false
        | some (w2, r2) => decide (r2 = .quiet ∧ w2.strong 1 = 0) && match w2.run manyDirs (List.replicate 5 (.io 1 id)) with
          | none => false
          | some (w3, rs3) => decide (.panic ∉ rs3) && (match w3.objs[1]? with
            | none => false
            | some ob => decide (ob.inst.joinResult = some true)) && match w3.step manyDirs (.drop1 0) with
              | none => false
              | some (w4, r4) => decide (r4 = .quiet) && (match w4.handles[0]? with
                | none => false
                | some hd => decide (hd.obj = 0)) && match w4.step manyDirs (.drop2 0) with
                | none => false
                | some (w5, r5) => decide (r5 = .quiet ∧ w5.strong 0 = 0) && match w5.run manyDirs (List.replicate 5 (.io 0 id)) with
                  | none => false
                  | some (w6, rs6) => decide (.panic ∉ rs6) && match w6.objs[0]? with
                    | none => false
                    | some ob => decide (ob.inst.joinResult = some true)) = true := by decide +kernel
  split at h
  · cases h
  rename_i w rs0 hr
  simp only [Bool.and_eq_true] at h
  obtain ⟨h1, h⟩ := h
  split at h
  · cases h
  rename_i w1 r1 hs1
  simp only [Bool.and_eq_true] at h
  obtain ⟨⟨h2, h3⟩, h⟩ := h
  split at h3
  · cases h3
  rename_i hd1 hh1
  split at h
  · cases h
  rename_i w2 r2 hs2
  simp only [Bool.and_eq_true] at h
  obtain ⟨h4, h⟩ := h
  split at h
  · cases h
  rename_i w3 rs3 hr3
  simp only [Bool.and_eq_true] at h
  obtain ⟨⟨h5, h6⟩, h⟩ := h
  split at h6
  · cases h6
  rename_i ob1 hob1
  split at h
  · cases h
  rename_i w4 r4 hs4
  simp only [Bool.and_eq_true] at h
  obtain ⟨⟨h7, h8⟩, h⟩ := h
  split at h8
  · cases h8
  rename_i hd0 hh0
  split at h
  · cases h
  rename_i w5 r5 hs5
  simp only [Bool.and_eq_true] at h
  obtain ⟨h9, h⟩ := h
  split at h
  · cases h
  rename_i w6 rs6 hr6
  simp only [Bool.and_eq_true] at h
  obtain ⟨h10, h11⟩ := h
  split at h11
  · cases h11
  rename_i ob0 hob0
  simp only [decide_eq_true_eq] at h1 h2 h3 h4 h5 h6 h7 h8 h9 h10 h11
  obtain ⟨h4, h4'⟩ := h4
  obtain ⟨h9, h9'⟩ := h9
  subst h2 h4 h7 h9
  have hsc : ScopeEnd manyDirs w true (dropTasks [1, 0]) unwindDrops w6 .panics :=
    .fine (.unlist hs1) (.fine (.last hh1 hs2 (by rw [h3]; exact h4') hr3 (by rw [h3]; exact hob1) h6)
      (.fine (.unlist hs4) (.fine (.last hh0 hs5 (by rw [h8]; exact h9') hr6 (by rw [h8]; exact hob0) h11) .unwound)))
  have hr5 : w5.run manyDirs (List.replicate 5 (.io 0 id) ++ []) = some (w6, rs6) := by rw [List.append_nil]; exact hr6
  have hr3' : w2.run manyDirs (List.replicate 5 (.io 1 id) ++ ([.drop1 0] ++ (.drop2 0 :: List.replicate 5 (.io 0 id) ++ []))) =
      some (w6, rs3 ++ .quiet :: .quiet :: rs6) := by
    refine wrun_append _ _ hr3 ?_
    rw [List.cons_append, List.cons_append, List.nil_append]
    simp only [World.run, hs4, hs5, hr5]
  refine ⟨w, w6, rs0, _, ⟨by decide, by decide, rfl, rfl, rfl⟩, .none, fun _ => fileMap_empty, hr, hsc,
    wrun_append (rs' := .quiet :: .quiet :: (rs3 ++ .quiet :: .quiet :: rs6)) _ _ hr ?_, ?_, ?_, calmRun_of _ (by decide +kernel), by decide⟩
  · unfold unwindDrops
    rw [List.cons_append, List.nil_append, List.cons_append]
    simp only [World.run, hs1, hs2, hr3']
  · simp [h1, h5, h10]
  · have hput : ∀ h o d k v, (kvToBytes ⟨k, 0, [0, 0, 0, v]⟩).length ≤ 59 → ∀ e ∈ wput h o d k v, e.Fits 64 := by
      intro h o d k v hl e he
      simp only [wput, List.mem_cons, List.not_mem_nil, or_false] at he
      rcases he with rfl | rfl | rfl
      · simp only [WEv.Fits, evOf, Ev.Fits, recordSize]; omega
      · trivial
      · trivial
    have hio : ∀ o n, ∀ e ∈ List.replicate n (WEv.io o id : WEv Unit), e.Fits 64 := by
      intro o n e he
      rw [List.mem_replicate] at he
      obtain ⟨_, rfl⟩ := he
      exact fun l => List.Perm.refl l
    intro e he
    simp only [unwindPuts, unwindDrops, List.mem_append, List.mem_cons, List.not_mem_nil, or_false] at he
    rcases he with ((he | he) | he) | he | (he | he) | he | he | he
    · rcases he with rfl | rfl <;> trivial
    · exact hput _ _ _ _ _ (by decide) e he
    · exact hput _ _ _ _ _ (by decide) e he
    · subst he; trivial
    · subst he; trivial
    · exact hio _ _ e he
    · subst he; trivial
    · subst he; trivial
    · exact hio _ _ e he

end Mmkv
