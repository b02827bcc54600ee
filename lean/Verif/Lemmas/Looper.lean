import Verif.Model.Looper
/-! Invariants of the background thread. -/

namespace Mmkv.Looper
variable {O J T : Type}

/-- Nothing is lost, duplicated or reordered; no wake-up is lost; `Quit` is the last signal. -/
structure Inv (exec : O → J → T → Run T) (cb0 : T) (s : St O J T) : Prop where
  split : s.ran.map (·.2) ++ s.buf ++ s.queue = s.pushed ++ s.late
  bufEmpty : s.io = .recv ∨ s.io = .swap ∨ s.io = .exited → s.buf = []
  lateClosed : s.late ≠ [] → s.sender = false
  owedOpen : 0 < s.owed → s.sender = true
  wake : s.io = .unwinding ∨ s.io = .dead ∨ s.pushed.length ≤ s.ran.length + s.buf.length ∨
    0 < s.owed ∨ .next ∈ s.chan ∨ s.io = .swap
  quitLast : ∀ pre post, s.chan = pre ++ .quit :: post → post = [] ∧ s.sender = false
  exitedClosed : s.io = .exited → s.sender = false ∧ s.chan = []
  cbRan : execAll exec cb0 s.ran =
    if s.io = .unwinding ∨ s.io = .dead then Run.panic s.cb else Run.done s.cb

theorem execAll_append (exec : O → J → T → Run T) (t : T) (xs ys : List (O × J)) :
    execAll exec t (xs ++ ys) = (execAll exec t xs).andThen fun t => execAll exec t ys := by
  induction xs generalizing t with
  | nil => rfl
  | cons x xs ih =>
    obtain ⟨o, j⟩ := x
    simp only [List.cons_append, execAll]
    cases exec o j t with
    | done t' => exact ih t'
    | panic t' => rfl

theorem inv_new (exec : O → J → T → Run T) (cb : T) : Inv exec cb (new cb : St O J T) where
  split := rfl
  bufEmpty := fun _ => rfl
  lateClosed := by simp [new]
  owedOpen := by simp [new]
  wake := by simp [new]
  quitLast := by simp [new]
  exitedClosed := by simp [new]
  cbRan := by simp [new, execAll]

theorem inv_push {exec : O → J → T → Run T} {cb0 : T} {s : St O J T} (h : Inv exec cb0 s) (j : J) :
    Inv exec cb0 (push s j) := by
  unfold push
  by_cases hs : s.sender = true
  · rw [if_pos hs]
    have hl : s.late = [] := by
      cases hlate : s.late with
      | nil => rfl
      | cons => have := h.lateClosed (by simp [hlate]); simp [hs] at this
    refine ⟨?_, h.bufEmpty, h.lateClosed, fun _ => hs, by simp, h.quitLast, h.exitedClosed, h.cbRan⟩
    have := h.split
    simp only [hl, List.append_nil] at this ⊢
    rw [← this]; simp
  · rw [if_neg hs]
    refine ⟨?_, h.bufEmpty, fun _ => by simpa using hs, h.owedOpen, h.wake, h.quitLast, h.exitedClosed, h.cbRan⟩
    have := h.split
    simp only []
    rw [← List.append_assoc, this, List.append_assoc]

theorem inv_send {exec : O → J → T → Run T} {cb0 : T} {s : St O J T} (h : Inv exec cb0 s) (ho : 0 < s.owed) :
    Inv exec cb0 (send s).1 := by
  have hs := h.owedOpen ho
  unfold send
  rw [if_pos hs]
  by_cases hd : s.io = .dead ∨ s.io = .exited
  · rw [if_pos hd]
    have hne : s.io ≠ .exited := by intro he; simp [(h.exitedClosed he).1] at hs
    have hd : s.io = .dead := by simpa [hne] using hd
    exact ⟨h.split, h.bufEmpty, h.lateClosed, fun _ => hs, by simp [hd], h.quitLast, h.exitedClosed, h.cbRan⟩
  · rw [if_neg hd]
    refine ⟨h.split, h.bufEmpty, h.lateClosed, fun _ => hs, by simp, ?_, ?_, h.cbRan⟩
    · intro pre post he
      have hq : Signal.quit ∈ s.chan := by
        have : Signal.quit ∈ s.chan ++ [Signal.next] := by simp only [] at he; rw [he]; simp
        simpa using this
      obtain ⟨p, q, hpq⟩ := List.append_of_mem hq
      have := (h.quitLast p q hpq).2
      simp [hs] at this
    · intro he; simp only [] at he; exact absurd (.inr he) hd

theorem inv_quit {exec : O → J → T → Run T} {cb0 : T} {s : St O J T} (h : Inv exec cb0 s) (ho : s.owed = 0) :
    Inv exec cb0 (quitSend s).1 := by
  unfold quitSend
  by_cases hs : s.sender = true
  · rw [if_pos hs]
    by_cases hd : s.io = .dead ∨ s.io = .exited
    · rw [if_pos hd]
      refine ⟨h.split, h.bufEmpty, fun _ => rfl, by simp [ho], h.wake, ?_, ?_, h.cbRan⟩
      · intro pre post he; exact ⟨(h.quitLast pre post he).1, rfl⟩
      · intro he; exact ⟨rfl, (h.exitedClosed he).2⟩
    · rw [if_neg hd]
      have hnq : Signal.quit ∉ s.chan := by
        intro hq
        obtain ⟨p, q, hpq⟩ := List.append_of_mem hq
        have := (h.quitLast p q hpq).2
        simp [hs] at this
      refine ⟨h.split, h.bufEmpty, fun _ => rfl, by simp [ho], ?_, ?_, ?_, h.cbRan⟩
      · rcases h.wake with w | w | w | w | w | w <;> simp_all
      · intro pre post he
        refine ⟨?_, rfl⟩
        simp only [] at he
        cases hp : post with
        | nil => rfl
        | cons x xs =>
          exfalso
          have hne : post ≠ [] := by rw [hp]; exact List.cons_ne_nil _ _
          obtain ⟨ys, y, hy⟩ : ∃ ys y, post = ys ++ [y] :=
            ⟨post.dropLast, post.getLast hne, (List.dropLast_concat_getLast hne).symm⟩
          rw [hy] at he
          have := congrArg List.dropLast he
          have e2 : pre ++ Signal.quit :: (ys ++ [y]) = (pre ++ Signal.quit :: ys) ++ [y] := by simp
          rw [e2] at this
          simp only [List.dropLast_concat] at this
          exact hnq (by rw [this]; simp)
      · intro he; simp only [] at he; exact absurd (.inr he) hd
  · rw [if_neg hs]; exact h

theorem inv_drop {exec : O → J → T → Run T} {cb0 : T} {s : St O J T} (h : Inv exec cb0 s) (ho : s.owed = 0) :
    Inv exec cb0 (dropSender s) :=
  ⟨h.split, h.bufEmpty, fun _ => rfl, by simp [dropSender, ho], h.wake,
    fun pre post he => ⟨(h.quitLast pre post he).1, rfl⟩, fun he => ⟨rfl, (h.exitedClosed he).2⟩, h.cbRan⟩

theorem inv_io {exec : O → J → T → Run T} {cb0 : T} {s s' : St O J T} (h : Inv exec cb0 s) (o : O)
    (hs : ioStep exec o s = some s') : Inv exec cb0 s' := by
  obtain ⟨hsp, hbe, hlc, hoo, hw, hql, hec, hcb⟩ := h
  unfold ioStep at hs
  cases hio : s.io with
  | recv =>
    simp only [hio] at hs
    have hb := hbe (.inl hio)
    cases hc : s.chan with
    | nil =>
      simp only [hc] at hs
      cases hsd : s.sender with
      | true => simp [hsd] at hs
      | false =>
        simp only [hsd, Bool.false_eq_true, if_false, Option.some.injEq] at hs
        subst hs
        refine ⟨hsp, fun _ => hb, fun _ => rfl, by simpa [hsd] using hoo, ?_, by simp, fun _ => ⟨rfl, rfl⟩, ?_⟩
        · rcases hw with w | w | w | w | w | w <;> simp_all
        · simpa [hio] using hcb
    | cons sig rest =>
      cases sig with
      | next =>
        simp only [hc, Option.some.injEq] at hs
        subst hs
        refine ⟨hsp, fun _ => hb, hlc, hoo, by simp, ?_, by simp, by simpa [hio] using hcb⟩
        intro pre post he
        exact hql (.next :: pre) post (by simp only [] at he; rw [hc, he]; rfl)
      | quit =>
        simp only [hc, Option.some.injEq] at hs
        subst hs
        have hq := hql [] rest (by rw [hc]; rfl)
        refine ⟨hsp, fun _ => hb, hlc, hoo, ?_, ?_, ?_, by simpa [hio] using hcb⟩
        · rcases hw with w | w | w | w | w | w <;> simp_all
        · intro pre post he; simp only [hq.1] at he; simp at he
        · intro _; exact ⟨hq.2, hq.1⟩
  | swap =>
    simp only [hio, Option.some.injEq] at hs
    subst hs
    have hb := hbe (.inr (.inl hio))
    refine ⟨?_, by simp, hlc, hoo, ?_, hql, by simp, by simpa [hio] using hcb⟩
    · simpa [hb] using hsp
    · right; right; left
      simp only [hb, List.append_nil] at hsp
      have := congrArg List.length hsp
      simp at this ⊢
      omega
  | run =>
    simp only [hio] at hs
    cases hbuf : s.buf with
    | nil =>
      simp only [hbuf, Option.some.injEq] at hs
      subst hs
      refine ⟨by simpa [hbuf] using hsp, fun _ => rfl, hlc, hoo, ?_, hql, by simp, by simpa [hio] using hcb⟩
      rcases hw with w | w | w | w | w | w <;> simp_all
    | cons j rest =>
      simp only [hbuf] at hs
      have hex : execAll exec cb0 (s.ran ++ [(o, j)]) = (exec o j s.cb) := by
        rw [execAll_append, hcb]
        simp only [hio, reduceCtorEq, or_self, if_false, Run.andThen_done, execAll]
        cases exec o j s.cb <;> rfl
      cases he : exec o j s.cb with
      | done cb =>
        simp only [he, Option.some.injEq] at hs
        subst hs
        refine ⟨by simpa [hbuf] using hsp, by simp, hlc, hoo, ?_, hql, by simp, ?_⟩
        · rcases hw with w | w | w | w | w | w
          · simp_all
          · simp_all
          · right; right; left; simp [hbuf] at w ⊢; omega
          · simp_all
          · simp_all
          · simp_all
        · rw [hex, he]; simp
      | panic cb =>
        simp only [he, Option.some.injEq] at hs
        subst hs
        refine ⟨by simpa [hbuf] using hsp, by simp, hlc, hoo, by simp, hql, by simp, ?_⟩
        rw [hex, he]; simp
  | unwinding =>
    simp only [hio, Option.some.injEq] at hs
    subst hs
    exact ⟨hsp, by simp, hlc, hoo, by simp, hql, by simp, by simpa [hio] using hcb⟩
  | exited => simp [hio] at hs
  | dead => simp [hio] at hs

theorem inv_step {exec : O → J → T → Run T} {cb0 : T} {s s' : St O J T} (h : Inv exec cb0 s) (e : Ev O J)
    (hs : step exec s e = some s') : Inv exec cb0 s' := by
  cases e with
  | push j => simp only [step, Option.some.injEq] at hs; subst hs; exact inv_push h j
  | send =>
    simp only [step] at hs
    split at hs
    · injection hs with hs; subst hs; exact inv_send h (by assumption)
    · cases hs
  | quit =>
    simp only [step] at hs
    split at hs
    · injection hs with hs; subst hs; exact inv_quit h (by assumption)
    · cases hs
  | drop =>
    simp only [step] at hs
    split at hs
    · injection hs with hs; subst hs; exact inv_drop h (by assumption)
    · cases hs
  | io o => exact inv_io h o hs

theorem inv_run {exec : O → J → T → Run T} {cb0 : T} (es : List (Ev O J)) {s s' : St O J T} (h : Inv exec cb0 s)
    (hs : run exec s es = some s') : Inv exec cb0 s' := by
  induction es generalizing s with
  | nil => simp [run] at hs; subst hs; exact h
  | cons e es ih =>
    unfold run at hs
    cases he : step exec s e with
    | none => simp [he] at hs
    | some s1 => simp only [he] at hs; exact ih (inv_step h e he) hs

/-- When the thread has returned, every job pushed while the sender existed has run. -/
theorem Inv.exited_all {exec : O → J → T → Run T} {cb0 : T} {s : St O J T} (h : Inv exec cb0 s)
    (he : s.io = .exited) : s.pushed <+: s.ran.map (·.2) := by
  have hb := h.bufEmpty (.inr (.inr he))
  obtain ⟨hsd, hch⟩ := h.exitedClosed he
  have ho : ¬ 0 < s.owed := fun h0 => by simp [h.owedOpen h0] at hsd
  have hlen : s.pushed.length ≤ s.ran.length := by
    rcases h.wake with w | w | w | w | w | w
    · simp [he] at w
    · simp [he] at w
    · simpa [hb] using w
    · exact absurd w ho
    · simp [hch] at w
    · simp [he] at w
  have hs := h.split
  simp only [hb, List.append_nil] at hs
  exact List.prefix_of_prefix_length_le (l₃ := s.pushed ++ s.late) ⟨s.late, rfl⟩ ⟨s.queue, hs⟩ (by simpa using hlen)

/-- What has run is always an initial part of what was pushed. -/
theorem Inv.ran_prefix {exec : O → J → T → Run T} {cb0 : T} {s : St O J T} (h : Inv exec cb0 s) :
    s.ran.map (·.2) <+: s.pushed ++ s.late :=
  ⟨s.buf ++ s.queue, by rw [← h.split, List.append_assoc]⟩

/-- Steps the thread can still make once the channel is closed. -/
def measure (s : St O J T) : Nat :=
  3 * s.chan.length + s.queue.length + s.buf.length +
    match s.io with
    | .recv => 1 | .swap => 3 | .run => 2 | .unwinding => 1 | .exited => 0 | .dead => 0

theorem measure_io {exec : O → J → T → Run T} {s s' : St O J T} (o : O) (hs : ioStep exec o s = some s') :
    measure s' < measure s := by
  unfold ioStep at hs
  cases hio : s.io with
  | recv =>
    simp only [hio] at hs
    cases hc : s.chan with
    | nil =>
      simp only [hc] at hs
      split at hs
      · cases hs
      · injection hs with hs; subst hs; simp [measure, hio, hc]
    | cons sig rest =>
      cases sig <;> (simp only [hc, Option.some.injEq] at hs; subst hs; simp only [measure, hio, hc, List.length_cons]; omega)
  | swap => simp only [hio, Option.some.injEq] at hs; subst hs; simp only [measure, hio]; omega
  | run =>
    simp only [hio] at hs
    cases hbuf : s.buf with
    | nil => simp only [hbuf, Option.some.injEq] at hs; subst hs; simp [measure, hio, hbuf]
    | cons j rest =>
      simp only [hbuf] at hs
      cases he : exec o j s.cb with
      | done cb =>
        simp only [he, Option.some.injEq] at hs; subst hs; simp only [measure, hbuf, List.length_cons, hio]; omega
      | panic cb =>
        simp only [he, Option.some.injEq] at hs; subst hs; simp only [measure, hbuf, List.length_cons, hio]; omega
  | unwinding => simp only [hio, Option.some.injEq] at hs; subst hs; simp [measure, hio]
  | exited => simp [hio] at hs
  | dead => simp [hio] at hs

/-- A closed channel never leaves the thread stuck. -/
theorem io_progress {exec : O → J → T → Run T} {s : St O J T} (o : O) (hs : s.sender = false)
    (h1 : s.io ≠ .exited) (h2 : s.io ≠ .dead) : ∃ s', ioStep exec o s = some s' := by
  unfold ioStep
  cases hio : s.io with
  | recv =>
    cases hc : s.chan with
    | nil => simp [hs]
    | cons sig rest => cases sig <;> simp
  | swap => simp
  | run =>
    cases hb : s.buf with
    | nil => simp
    | cons j rest => cases he : exec o j s.cb <;> simp [he]
  | unwinding => simp
  | exited => exact absurd hio h1
  | dead => exact absurd hio h2

end Mmkv.Looper
