import Verif.Lemmas.Looper
/-!
# The background thread: C08, C09, C42, C45

Any number of producers: between the two halves of one `post` any other thread may do the first or second half of its
own.  The statements mention only the events and the state of the callback, not the model's ghost fields.
-/

namespace Mmkv.Looper
variable {O J T : Type}

/-- The jobs handed to `post`, in the order they took the queue lock. -/
def posted (es : List (Ev O J)) : List J :=
  es.filterMap fun | .push j => some j | _ => none

/-- The events before the looper is closed by `quit` or by dropping it. -/
def beforeClose (es : List (Ev O J)) : List (Ev O J) :=
  es.takeWhile fun | .quit => false | .drop => false | _ => true

theorem posted_cons_push (j : J) (es : List (Ev O J)) : posted (.push j :: es) = j :: posted es := rfl

theorem sender_io {exec : O → J → T → Run T} {s s' : St O J T} {o : O} (h : ioStep exec o s = some s') :
    s'.sender = s.sender ∧ s'.pushed = s.pushed ∧ s'.late = s.late := by
  unfold ioStep at h
  split at h
  · split at h
    · injection h with h; subst h; exact ⟨rfl, rfl, rfl⟩
    · injection h with h; subst h; exact ⟨rfl, rfl, rfl⟩
    · split at h
      · cases h
      · injection h with h; subst h; exact ⟨rfl, rfl, rfl⟩
  · injection h with h; subst h; exact ⟨rfl, rfl, rfl⟩
  · split at h
    · injection h with h; subst h; exact ⟨rfl, rfl, rfl⟩
    · split at h <;> (injection h with h; subst h; exact ⟨rfl, rfl, rfl⟩)
  · injection h with h; subst h; exact ⟨rfl, rfl, rfl⟩
  · cases h
  · cases h

/-- The ghost fields are what the events say. -/
theorem ghosts {exec : O → J → T → Run T} : ∀ (es : List (Ev O J)) (s s' : St O J T), run exec s es = some s' →
    (s.sender = true → s.late = []) →
    (s'.pushed ++ s'.late = s.pushed ++ s.late ++ posted es) ∧
    (s.sender = true → s'.pushed = s.pushed ++ posted (beforeClose es)) ∧ (s.sender = false → s'.pushed = s.pushed) := by
  intro es
  induction es with
  | nil => intro s s' h _; simp only [run, Option.some.injEq] at h; subst h; simp [posted, beforeClose]
  | cons e es ih =>
    intro s s' h hl
    unfold run at h
    split at h
    · rename_i s1 hs1
      cases e with
      | push j =>
        simp only [step, Option.some.injEq] at hs1
        subst hs1
        unfold push at h
        by_cases hs : s.sender = true
        · rw [if_pos hs] at h
          obtain ⟨h1, h2, h3⟩ := ih _ _ h (fun _ => hl hs)
          refine ⟨?_, fun _ => ?_, by simp [hs]⟩
          · rw [h1]; simp [hl hs, posted]
          · rw [h2 hs]; simp [posted, beforeClose]
        · rw [if_neg hs] at h
          obtain ⟨h1, h2, h3⟩ := ih _ _ h (fun h' => absurd h' hs)
          refine ⟨?_, fun h' => absurd h' hs, fun h' => h3 h'⟩
          rw [h1]; simp [posted]
      | send =>
        simp only [step] at hs1
        split at hs1
        · injection hs1 with hs1
          subst hs1
          have e1 : (send s).1.pushed = s.pushed ∧ (send s).1.late = s.late ∧ (send s).1.sender = s.sender := by
            unfold send; split
            · split <;> exact ⟨rfl, rfl, rfl⟩
            · exact ⟨rfl, rfl, rfl⟩
          obtain ⟨h1, h2, h3⟩ := ih _ _ h (by rw [e1.2.1, e1.2.2]; exact hl)
          rw [e1.1, e1.2.1] at h1
          rw [e1.2.2, e1.1] at h2 h3
          exact ⟨by simpa [posted] using h1, by simpa [posted, beforeClose] using h2, h3⟩
        · cases hs1
      | quit =>
        simp only [step] at hs1
        split at hs1
        · injection hs1 with hs1
          subst hs1
          have e1 : (quitSend s).1.pushed = s.pushed ∧ (quitSend s).1.late = s.late ∧ (quitSend s).1.sender = false := by
            unfold quitSend; split
            · split <;> exact ⟨rfl, rfl, rfl⟩
            · exact ⟨rfl, rfl, by simpa using ‹¬ s.sender = true›⟩
          obtain ⟨h1, h2, h3⟩ := ih _ _ h (by simp [e1.2.2])
          rw [e1.1, e1.2.1] at h1
          rw [e1.2.2, e1.1] at h3
          exact ⟨by simpa [posted] using h1, fun _ => by simpa [posted, beforeClose] using h3 rfl, fun _ => h3 rfl⟩
        · cases hs1
      | drop =>
        simp only [step] at hs1
        split at hs1
        · injection hs1 with hs1
          subst hs1
          obtain ⟨h1, h2, h3⟩ := ih _ _ h (by simp [dropSender])
          exact ⟨by simpa [posted, dropSender] using h1, fun _ => by simpa [posted, beforeClose, dropSender] using h3 rfl,
            fun _ => h3 rfl⟩
        · cases hs1
      | io o =>
        simp only [step] at hs1
        obtain ⟨e1, e2, e3⟩ := sender_io hs1
        obtain ⟨h1, h2, h3⟩ := ih _ _ h (by rw [e1, e3]; exact hl)
        rw [e2, e3] at h1
        rw [e1, e2] at h2 h3
        exact ⟨by simpa [posted] using h1, by simpa [posted, beforeClose] using h2, h3⟩
    · cases h

/-- **C08.** After any events, what the thread has done to its callback is exactly the execution, one after the other
and each once, of the first so-many jobs posted, in the order they were posted (with some iteration orders `o`). -/
theorem C08_once_in_order (exec : O → J → T → Run T) (cb : T) (es : List (Ev O J)) (s : St O J T)
    (h : run exec (new cb) es = some s) :
    ∃ done : List (O × J), done.map (·.2) <+: posted es ∧ (execAll exec cb done).state = s.cb := by
  have hi := inv_run es (inv_new exec cb) h
  refine ⟨s.ran, ?_, ?_⟩
  · have := hi.ran_prefix
    rw [(ghosts es _ _ h (by simp [new])).1] at this
    simpa [new] using this
  · have := congrArg Run.state hi.cbRan
    rw [this]; split <;> rfl

/-- **C09.** Once the thread has returned (which `drop` and `clear_data` wait for), every job posted before the looper
was closed has been executed, and none of them panicked. -/
theorem C09_close_waits (exec : O → J → T → Run T) (cb : T) (es : List (Ev O J)) (s : St O J T)
    (h : run exec (new cb) es = some s) (hx : s.io = .exited) :
    ∃ done : List (O × J), posted (beforeClose es) <+: done.map (·.2) ∧ done.map (·.2) <+: posted es ∧
      execAll exec cb done = .done s.cb := by
  have hi := inv_run es (inv_new exec cb) h
  refine ⟨s.ran, ?_, ?_, ?_⟩
  · have := hi.exited_all hx
    rw [(ghosts es _ _ h (by simp [new])).2.1 (by simp [new])] at this
    simpa [new] using this
  · have := hi.ran_prefix
    rw [(ghosts es _ _ h (by simp [new])).1] at this
    simpa [new] using this
  · have := hi.cbRan
    simpa [hx] using this

/-- **C45.** No wake-up is lost: if every `post` begun has returned and the thread waits for a signal that is not
there, then every job posted has been executed - none waits for some later call. -/
theorem C45_no_lost_wakeup (exec : O → J → T → Run T) (cb : T) (es : List (Ev O J)) (s : St O J T)
    (h : run exec (new cb) es = some s) (hopen : s.sender = true) (hpost : s.owed = 0) (hwait : s.io = .recv) (hchan : s.chan = []) :
    ∃ done : List (O × J), done.map (·.2) = posted es ∧ execAll exec cb done = .done s.cb := by
  have hi := inv_run es (inv_new exec cb) h
  have hl : s.late = [] := by
    cases hlate : s.late with
    | nil => rfl
    | cons => have := hi.lateClosed (by simp [hlate]); simp [hopen] at this
  have hb := hi.bufEmpty (.inl hwait)
  have hg := (ghosts es _ _ h (by simp [new])).1
  simp only [new, List.nil_append, hl, List.append_nil] at hg
  have hlen : s.pushed.length ≤ s.ran.length := by
    rcases hi.wake with w | w | w | w | w | w
    · simp [hwait] at w
    · simp [hwait] at w
    · simpa [hb] using w
    · omega
    · simp [hchan] at w
    · simp [hwait] at w
  have hp := hi.ran_prefix
  rw [hl, List.append_nil] at hp
  refine ⟨s.ran, ?_, by simpa [hwait] using hi.cbRan⟩
  rw [← hg]
  exact hp.eq_of_length_le (by simpa using hlen)

/-- Only the thread moves, with the iteration orders `os`. -/
def ioRun (exec : O → J → T → Run T) : St O J T → List O → Option (St O J T)
  | s, [] => some s
  | s, o :: os => match ioStep exec o s with
    | some s' => ioRun exec s' os
    | none => none

theorem ioRun_measure {exec : O → J → T → Run T} : ∀ (os : List O) (s s' : St O J T), ioRun exec s os = some s' →
    os.length + measure s' ≤ measure s := by
  intro os
  induction os with
  | nil => intro s s' h; simp only [ioRun, Option.some.injEq] at h; subst h; simp
  | cons o os ih =>
    intro s s' h
    unfold ioRun at h
    split at h
    · rename_i s1 h1
      have := ih _ _ h
      have := measure_io o h1
      simp only [List.length_cons]; omega
    · cases h

theorem ioRun_sender {exec : O → J → T → Run T} : ∀ (os : List O) (s s' : St O J T), ioRun exec s os = some s' →
    s'.sender = s.sender := by
  intro os
  induction os with
  | nil => intro s s' h; simp only [ioRun, Option.some.injEq] at h; subst h; rfl
  | cons o os ih =>
    intro s s' h
    unfold ioRun at h
    split at h
    · rename_i s1 h1; rw [ih _ _ h, (sender_io h1).1]
    · cases h

/-- **C42.** Once the looper is closed (nothing is sent any more), the thread makes at most
`3 * signals + queued jobs + 3` more steps, and as long as it has not ended it can make one; so whatever the iteration
orders, it ends.  (`owed = 0`: both ways of closing need exclusive access.) -/
theorem C42_closing_finishes (exec : O → J → T → Run T) (s : St O J T) (hs : s.sender = false) :
    (∀ os s', ioRun exec s os = some s' → os.length ≤ 3 * s.chan.length + s.queue.length + s.buf.length + 3) ∧
    (∀ os s', ioRun exec s os = some s' → s'.io ≠ .exited → s'.io ≠ .dead → ∀ o, (ioStep exec o s').isSome) := by
  constructor
  · intro os s' h
    have := ioRun_measure os s s' h
    have hm : measure s ≤ 3 * s.chan.length + s.queue.length + s.buf.length + 3 := by
      unfold measure
      cases s.io <;> simp only [] <;> omega
    omega
  · intro os s' h h1 h2 o
    obtain ⟨s2, h2⟩ := io_progress (exec := exec) o ((ioRun_sender os s s' h).trans hs) h1 h2
    simp [h2]

/-- **C42**, the end: when jobs do not panic, the thread ends by returning, having run every job (C09 says which). -/
theorem C42_ends_normally (exec : O → J → T → Run T) (hexec : ∀ o j t, (exec o j t).isDone = true) (cb : T)
    (es : List (Ev O J)) (s s' : St O J T) (h : run exec (new cb) es = some s) (hs : s.sender = false)
    (os : List O) (hr : ioRun exec s os = some s') (hstuck : ∀ o, ioStep exec o s' = none) (o0 : O) : s'.io = .exited := by
  have hi := inv_run es (inv_new exec cb) h
  have hi' : Inv exec cb s' := by
    clear hstuck
    induction os generalizing s es with
    | nil => simp only [ioRun, Option.some.injEq] at hr; subst hr; exact hi
    | cons o os ih =>
      unfold ioRun at hr
      split at hr
      · rename_i s1 h1
        have hrun1 : run exec (new cb) (es ++ [.io o]) = some s1 := by
          have : ∀ (es : List (Ev O J)) (a b : St O J T), run exec a es = some b → ioStep exec o b = some s1 →
              run exec a (es ++ [.io o]) = some s1 := by
            intro es
            induction es with
            | nil => intro a b hab hb; simp only [run, Option.some.injEq] at hab; subst hab; simp [run, step, hb]
            | cons e es ih2 =>
              intro a b hab hb
              unfold run at hab
              simp only [List.cons_append, run]
              split at hab
              · rename_i a1 ha1; exact ih2 _ _ hab hb
              · cases hab
          exact this es _ _ h h1
        exact ih (es ++ [.io o]) s1 hrun1 ((sender_io h1).1.trans hs) hr (inv_run _ (inv_new exec cb) hrun1)
      · cases hr
  have hsd := (ioRun_sender os s s' hr).trans hs
  by_cases h1 : s'.io = .exited
  · exact h1
  by_cases h2 : s'.io = .dead
  · exfalso
    have := hi'.cbRan
    simp only [h2, or_true, if_true] at this
    have key : ∀ (xs : List (O × J)) (t : T), (execAll exec t xs).isDone = true := by
      intro xs
      induction xs with
      | nil => intro t; rfl
      | cons x xs ih =>
        intro t
        obtain ⟨o, j⟩ := x
        have := hexec o j t
        simp only [execAll]
        cases hx : exec o j t with
        | done t' => exact ih t'
        | panic t' => rw [hx] at this; cases this
    have := (congrArg Run.isDone this).symm.trans (key _ _)
    cases this
  · obtain ⟨s2, hs2⟩ := io_progress (exec := exec) o0 hsd h1 h2
    rw [hstuck o0] at hs2; cases hs2

/-! ### The hypotheses can be met -/

/-- Jobs are numbers, the callback writes them down. -/
def demoExec : Unit → Nat → List Nat → Run (List Nat) := fun _ j t => .done (t ++ [j])

/-- Two producers whose `post`s overlap, the thread swapping in between, then a close. -/
def demoEvs : List (Ev Unit Nat) :=
  [.push 1, .push 2, .send, .io (), .push 3, .io (), .send, .io (), .io (), .send, .io (), .io (), .io (), .drop]

example : (run demoExec (new []) demoEvs).map (fun s => (s.cb, s.sender, s.queue, s.io)) = some ([1, 2, 3], false, [], .swap) := by
  decide
example : (run demoExec (new []) (demoEvs ++ [.io (), .io (), .io (), .io (), .io (), .io ()])).map (fun s => (s.cb, s.io)) = some ([1, 2, 3], .exited) := by
  decide
example : (run demoExec (new []) (demoEvs.dropLast ++ [.io (), .io (), .io (), .io (), .io ()])).map
    (fun s => (s.cb, s.sender, s.owed, s.chan, s.io)) = some ([1, 2, 3], true, 0, [], .recv) := by
  decide

end Mmkv.Looper
