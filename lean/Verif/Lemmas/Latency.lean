import Verif.Lemmas.Session
/-! How many steps of the background thread it takes until a job that has been signalled has run. -/

namespace Mmkv
open Spec
variable {ι : Type}

namespace Looper
variable {O J T : Type}

/-- After at most `n` more steps of the thread the first `N` jobs have been run. -/
def Due (N : Nat) (s : St O J T) (n : Nat) : Prop :=
  N ≤ s.ran.length ∨
  (s.io = .run ∧ N ≤ s.ran.length + s.buf.length ∧ N ≤ s.ran.length + n) ∨
  (N ≤ s.pushed.length ∧
    ((s.io = .run ∧ .next ∈ s.chan ∧ N + 3 ≤ s.ran.length + n) ∨
     (s.io = .recv ∧ .next ∈ s.chan ∧ N + 2 ≤ s.ran.length + n) ∨
     (s.io = .swap ∧ N + 1 ≤ s.ran.length + n)))

theorem Due.zero {N : Nat} {s : St O J T} (h : Due N s 0) : N ≤ s.ran.length := by
  rcases h with h | ⟨_, _, h⟩ | ⟨_, ⟨_, _, h⟩ | ⟨_, _, h⟩ | ⟨_, h⟩⟩ <;> omega

theorem due_push {N n : Nat} {s : St O J T} (h : Due N s n) (j : J) : Due N (push s j) n := by
  unfold push
  rcases h with h | h | ⟨hp, h⟩
  · left; split <;> exact h
  · right; left; split <;> exact h
  · right; right
    split
    · exact ⟨by simp; omega, h⟩
    · exact ⟨hp, h⟩

theorem due_send {N n : Nat} {s : St O J T} (h : Due N s n) : Due N (send s).1 n := by
  unfold send
  split
  · split
    · exact h
    · rcases h with h | h | ⟨hp, h⟩
      · exact .inl h
      · exact .inr (.inl h)
      · refine .inr (.inr ⟨hp, ?_⟩)
        rcases h with ⟨h1, h2, h3⟩ | ⟨h1, h2, h3⟩ | h
        · exact .inl ⟨h1, List.mem_append_left _ h2, h3⟩
        · exact .inr (.inl ⟨h1, List.mem_append_left _ h2, h3⟩)
        · exact .inr (.inr h)
  · exact h

theorem due_quit {N n : Nat} {s : St O J T} (h : Due N s n) : Due N (quitSend s).1 n := by
  unfold quitSend
  split
  · split
    · exact h
    · rcases h with h | h | ⟨hp, h⟩
      · exact .inl h
      · exact .inr (.inl h)
      · refine .inr (.inr ⟨hp, ?_⟩)
        rcases h with ⟨h1, h2, h3⟩ | ⟨h1, h2, h3⟩ | h
        · exact .inl ⟨h1, List.mem_append_left _ h2, h3⟩
        · exact .inr (.inl ⟨h1, List.mem_append_left _ h2, h3⟩)
        · exact .inr (.inr h)
  · exact h

theorem due_io {exec : O → J → T → Run T} {cb0 : T} {N n : Nat} {s s' : St O J T} {o : O} (hinv : Inv exec cb0 s)
    (h : Due N s (n + 1)) (hs : ioStep exec o s = some s') : Due N s' n ∨ s'.io = .unwinding ∨ s'.io = .dead := by
  have hlen := congrArg List.length hinv.split
  simp only [List.length_append, List.length_map] at hlen
  unfold ioStep at hs
  cases hio : s.io with
  | exited => simp [hio] at hs
  | dead => simp [hio] at hs
  | unwinding => simp only [hio, Option.some.injEq] at hs; subst hs; exact .inr (.inr rfl)
  | recv =>
    simp only [hio] at hs
    left
    rcases h with h | ⟨h, _⟩ | ⟨hp, ⟨h, _⟩ | ⟨_, hc, hn⟩ | ⟨h, _⟩⟩
    · left
      split at hs
      · injection hs with hs; subst hs; exact h
      · injection hs with hs; subst hs; exact h
      · split at hs
        · cases hs
        · injection hs with hs; subst hs; exact h
    · simp [hio] at h
    · simp [hio] at h
    · split at hs
      · injection hs with hs; subst hs
        exact .inr (.inr ⟨hp, .inr (.inr ⟨rfl, by simp only []; omega⟩)⟩)
      · rename_i rest hc'
        obtain ⟨h1, _⟩ := hinv.quitLast [] rest hc'
        rw [hc', h1] at hc; simp at hc
      · rename_i hc'; rw [hc'] at hc; simp at hc
    · simp [hio] at h
  | swap =>
    simp only [hio, Option.some.injEq] at hs
    have hb := hinv.bufEmpty (.inr (.inl hio))
    subst hs
    left
    rcases h with h | ⟨h, _⟩ | ⟨hp, ⟨h, _⟩ | ⟨h, _⟩ | ⟨_, hn⟩⟩
    · exact .inl h
    · simp [hio] at h
    · simp [hio] at h
    · simp [hio] at h
    · rw [hb] at hlen
      simp only [List.length_nil] at hlen
      exact .inr (.inl ⟨rfl, by simp only []; omega, by simp only []; omega⟩)
  | run =>
    simp only [hio] at hs
    cases hbuf : s.buf with
    | nil =>
      simp only [hbuf, Option.some.injEq] at hs
      subst hs
      rw [hbuf] at hlen
      left
      rcases h with h | ⟨_, h, _⟩ | ⟨hp, ⟨_, hc, hn⟩ | ⟨h, _⟩ | ⟨h, _⟩⟩
      · exact .inl h
      · rw [hbuf] at h; exact .inl (by simpa using h)
      · exact .inr (.inr ⟨hp, .inr (.inl ⟨rfl, hc, by simp only []; omega⟩)⟩)
      · simp [hio] at h
      · simp [hio] at h
    | cons j rest =>
      simp only [hbuf] at hs
      split at hs
      · injection hs with hs; subst hs
        left
        rcases h with h | ⟨_, h, hn⟩ | ⟨hp, ⟨_, hc, hn⟩ | ⟨h, _⟩ | ⟨h, _⟩⟩
        · left; simp; omega
        · rw [hbuf] at h
          simp only [List.length_cons] at h
          exact .inr (.inl ⟨rfl, by simp; omega, by simp; omega⟩)
        · exact .inr (.inr ⟨hp, .inl ⟨rfl, hc, by simp; omega⟩⟩)
        · simp [hio] at h
        · simp [hio] at h
      · injection hs with hs; subst hs; exact .inr (.inl rfl)

/-- While something is due the thread is not blocked. -/
theorem due_enabled {exec : O → J → T → Run T} {N n : Nat} {s : St O J T} (o : O)
    (h : Due N s n) (hN : s.ran.length < N) : (ioStep exec o s).isSome := by
  unfold ioStep
  rcases h with h | ⟨h, _⟩ | ⟨hp, ⟨h, _⟩ | ⟨h, hc, hn⟩ | ⟨h, _⟩⟩
  · omega
  · rw [h]; simp only []
    split
    · rfl
    · split <;> rfl
  · rw [h]; simp only []
    split
    · rfl
    · split <;> rfl
  · rw [h]; simp only []
    split
    · rfl
    · rfl
    · rename_i hc'; rw [hc'] at hc; simp at hc
  · rw [h]; rfl

/-- No `post` under way, thread alive: everything pushed is due within the number of waiting jobs plus three. -/
theorem due_start {exec : O → J → T → Run T} {cb0 : T} {s : St O J T} (hinv : Inv exec cb0 s) (howed : s.owed = 0)
    (hlate : s.late = []) (halive : s.io ≠ .unwinding ∧ s.io ≠ .dead) :
    Due s.pushed.length s (s.buf.length + s.queue.length + 3) := by
  have hlen := congrArg List.length hinv.split
  simp only [List.length_append, List.length_map, hlate, List.length_nil] at hlen
  have hw : s.pushed.length ≤ s.ran.length + s.buf.length ∨ .next ∈ s.chan ∨ s.io = .swap := by
    rcases hinv.wake with w | w | w | w | w | w
    · exact absurd w halive.1
    · exact absurd w halive.2
    · exact .inl w
    · omega
    · exact .inr (.inl w)
    · exact .inr (.inr w)
  unfold Due
  cases hio : s.io with
  | unwinding => exact absurd hio halive.1
  | dead => exact absurd hio halive.2
  | exited =>
    have hb := hinv.bufEmpty (.inr (.inr hio))
    have hc := (hinv.exitedClosed hio).2
    left
    rcases hw with w | w | w
    · simpa [hb] using w
    · simp [hc] at w
    · simp [hio] at w
  | recv =>
    have hb := hinv.bufEmpty (.inl hio)
    rcases hw with w | w | w
    · left; simpa [hb] using w
    · exact .inr (.inr ⟨Nat.le_refl _, .inr (.inl ⟨rfl, w, by omega⟩)⟩)
    · simp [hio] at w
  | swap => exact .inr (.inr ⟨Nat.le_refl _, .inr (.inr ⟨rfl, by omega⟩)⟩)
  | run =>
    rcases hw with w | w | w
    · exact .inr (.inl ⟨rfl, w, by omega⟩)
    · exact .inr (.inr ⟨Nat.le_refl _, .inl ⟨rfl, w, by omega⟩⟩)
    · simp [hio] at w

end Looper

/-- A step of the background thread. -/
def Ev.isIo : Ev ι → Bool
  | .io _ => true
  | _ => false

namespace Inst

theorem due_step {codecs : ι → Codec} {s s' : Inst ι} {e : Ev ι} {r : Option (Out Unit)} {cb0 : Cb} {N n : Nat}
    (hinv : Looper.Inv (exec codecs s.idx) cb0 s.lp) (h : Looper.Due N s.lp n)
    (hs : step codecs s e = some (s', r)) (hp : ∀ i, e = .api i → s.phase ≠ .clrOpen)
    (halive : s'.lp.io ≠ .unwinding ∧ s'.lp.io ≠ .dead) :
    Looper.Due N s'.lp (n - if e.isIo then 1 else 0) := by
  cases e with
  | put k t bs =>
    simp only [step] at hs
    split at hs
    · cases hs
    · split at hs
      · simp only [Option.some.injEq, Prod.mk.injEq] at hs; obtain ⟨rfl, _⟩ := hs; simpa [Ev.isIo] using h
      · split at hs <;>
          · simp only [Option.some.injEq, Prod.mk.injEq] at hs; obtain ⟨rfl, _⟩ := hs; simpa [Ev.isIo] using h
  | delete k =>
    simp only [step] at hs
    split at hs
    · cases hs
    · split at hs
      · simp only [Option.some.injEq, Prod.mk.injEq] at hs; obtain ⟨rfl, _⟩ := hs; simpa [Ev.isIo] using h
      · split at hs
        · simp only [Option.some.injEq, Prod.mk.injEq] at hs; obtain ⟨rfl, _⟩ := hs; simpa [Ev.isIo] using h
        · split at hs <;>
            · simp only [Option.some.injEq, Prod.mk.injEq] at hs; obtain ⟨rfl, _⟩ := hs; simpa [Ev.isIo] using h
  | clear =>
    simp only [step] at hs
    split at hs
    · cases hs
    · split at hs
      · simp only [Option.some.injEq, Prod.mk.injEq] at hs; obtain ⟨rfl, _⟩ := hs; simpa [Ev.isIo] using h
      · split at hs <;>
          · simp only [Option.some.injEq, Prod.mk.injEq] at hs; obtain ⟨rfl, _⟩ := hs; simpa [Ev.isIo] using h
  | drop =>
    simp only [step] at hs
    split at hs
    · cases hs
    · simp only [Option.some.injEq, Prod.mk.injEq] at hs; obtain ⟨rfl, _⟩ := hs; exact h
  | io o =>
    simp only [step] at hs
    split at hs
    · cases hs
    · rename_i lp hlp
      simp only [Option.some.injEq, Prod.mk.injEq] at hs; obtain ⟨rfl, _⟩ := hs
      simp only [Ev.isIo, if_true]
      have h' : Looper.Due N s.lp (n - 1 + 1) := by
        unfold Looper.Due at h ⊢
        rcases h with h | ⟨h1, h2, h3⟩ | ⟨h0, ⟨h1, h2, h3⟩ | ⟨h1, h2, h3⟩ | ⟨h1, h3⟩⟩
        · exact .inl h
        · exact .inr (.inl ⟨h1, h2, by omega⟩)
        · exact .inr (.inr ⟨h0, .inl ⟨h1, h2, by omega⟩⟩)
        · exact .inr (.inr ⟨h0, .inr (.inl ⟨h1, h2, by omega⟩)⟩)
        · exact .inr (.inr ⟨h0, .inr (.inr ⟨h1, by omega⟩)⟩)
      rcases Looper.due_io hinv h' hlp with h | h | h
      · exact h
      · exact absurd h halive.1
      · exact absurd h halive.2
  | api i =>
    simp only [step] at hs
    simp only [Ev.isIo, Bool.false_eq_true, if_false, Nat.sub_zero]
    cases hph : s.phase with
    | idle => simp [hph] at hs
    | closed => simp [hph] at hs
    | clrOpen => exact absurd hph (hp i rfl)
    | push j =>
      simp only [hph, Option.some.injEq, Prod.mk.injEq] at hs; obtain ⟨rfl, _⟩ := hs
      exact Looper.due_push h j
    | clrPush =>
      simp only [hph, Option.some.injEq, Prod.mk.injEq] at hs; obtain ⟨rfl, _⟩ := hs
      exact Looper.due_push h _
    | send =>
      simp only [hph, Option.some.injEq, Prod.mk.injEq] at hs; obtain ⟨rfl, _⟩ := hs
      exact Looper.due_send h
    | clrSend =>
      simp only [hph] at hs
      split at hs <;>
        · simp only [Option.some.injEq, Prod.mk.injEq] at hs; obtain ⟨rfl, _⟩ := hs; exact Looper.due_send h
    | clrQuit =>
      simp only [hph] at hs
      split at hs <;>
        · simp only [Option.some.injEq, Prod.mk.injEq] at hs; obtain ⟨rfl, _⟩ := hs; exact Looper.due_quit h
    | clrJoin =>
      simp only [hph] at hs
      split at hs
      · simp only [Option.some.injEq, Prod.mk.injEq] at hs; obtain ⟨rfl, _⟩ := hs; exact h
      · split at hs
        · simp only [Option.some.injEq, Prod.mk.injEq] at hs; obtain ⟨rfl, _⟩ := hs; exact h
        · cases hs

/-- What the file holds, in terms of the jobs run by this generation of the thread. -/
theorem disk_holds {E : Env ι} {S0 : Store} {K : Nat} {pre cs : List Mutation} {s : Inst ι} (h : DAt E S0 K pre cs s)
    (i : ι) (hi : s.lp.cb.removed = false → i = s.idx) :
    GoodFile E (E.codecs i) (K + cs.length) s.disk ((S0.run pre).run (s.lp.ran.map (·.2.mutation))) := by
  obtain ⟨hbook, _, hpage, _, _, post, K0, content, items, hcs, htr, hw, hK, hdisk⟩ := h
  obtain ⟨cb0, _, hinv⟩ := hbook.inv
  have hpre : s.lp.ran.map (·.2) <+: s.jobs := by
    have := hinv.ran_prefix
    rw [hbook.late, List.append_nil] at this
    exact this.trans ⟨_, rfl⟩
  have hlen : s.lp.ran.length ≤ s.jobs.length := by simpa using hpre.length_le
  cases hr : s.lp.cb.removed with
  | false =>
    have hd : s.disk = s.lp.cb.ws.file := by simp [disk, hr]
    rw [hd, hi hr, ← hdisk.1 hr]
    refine .held hw.holds hw.framed hw.bufs (by rw [← hpage]; exact hw.fits) ?_ ?_ hdisk.2
    · have := hw.count; omega
    · have := hw.size
      rw [hpage] at this
      exact Nat.le_trans this (Nat.mul_le_mul_left _ (by omega))
  | true =>
    have hd : s.disk = [] := by simp [disk, hr]
    have hmem := hbook.removed.1 hr
    have hclr : s.phase.clearing = true := by
      cases hc : s.phase.clearing with
      | true => rfl
      | false =>
        have := hbook.jobsW hc .remove (hpre.subset hmem)
        simp [Job.isWrite] at this
    obtain ⟨W, hW, hW'⟩ := hbook.jobsC hclr
    have hall : s.lp.ran.map (·.2) = W ++ [.remove] := by
      rw [hW] at hpre
      rcases Nat.lt_or_ge (s.lp.ran.map (·.2)).length (W.length + 1) with hlt | hge
      · have h2 : s.lp.ran.map (·.2) <+: W :=
          List.prefix_of_prefix_length_le hpre ⟨[.remove], rfl⟩ (by omega)
        have := hW' _ (h2.subset hmem)
        simp [Job.isWrite] at this
      · exact hpre.eq_of_length_le (by simpa using hge)
    have : s.lp.ran.map (·.2.mutation) = W.map Job.mutation ++ [.clear] := by
      have := congrArg (List.map Job.mutation) hall
      rw [List.map_map] at this
      rw [List.map_append] at this
      exact this
    rw [hd, this, run_snoc]
    exact .empty

/-- The disk holds at least the calls whose jobs have run, given by a first part `a` of the calls. -/
theorem disk_at_least {E : Env ι} {S0 : Store} {K : Nat} {pre a b : List Mutation} {js : List Mutation} {s : Inst ι}
    (h : DAt E S0 K pre (pre ++ a ++ b) s) (hj : Track (S0.run pre) a js) (hran : js.length ≤ s.lp.ran.length)
    (i : ι) (hi : s.lp.cb.removed = false → i = s.idx) :
    ∃ m, (pre ++ a).length ≤ m ∧ m ≤ (pre ++ a ++ b).length ∧
      GoodFile E (E.codecs i) (K + (pre ++ a ++ b).length) s.disk (S0.run ((pre ++ a ++ b).take m)) := by
  have hg := disk_holds h i hi
  obtain ⟨hbook, _, _, _, _, post, _, _, _, hcs, htr, _⟩ := h
  rw [List.append_assoc] at hcs
  have hpost : a ++ b = post := List.append_cancel_left hcs
  subst hpost
  obtain ⟨ja, jb, hjs, hta, htb⟩ := htr.split
  have hja : js = ja := hj.det hta
  subst hja
  obtain ⟨cb0, _, hinv⟩ := hbook.inv
  have hpre : s.lp.ran.map (·.2) <+: s.jobs := by
    have := hinv.ran_prefix
    rw [hbook.late, List.append_nil] at this
    exact this.trans ⟨_, rfl⟩
  have hmap : s.lp.ran.map (·.2.mutation) = (s.jobs.map Job.mutation).take s.lp.ran.length := by
    obtain ⟨t, ht⟩ := hpre
    rw [← ht, List.map_append, List.take_left' (by simp), List.map_map]
    rfl
  have hlen : s.lp.ran.length ≤ js.length + jb.length := by
    have h1 : s.lp.ran.length ≤ s.jobs.length := by simpa using hpre.length_le
    have h2 := congrArg List.length hjs
    simp at h2
    omega
  obtain ⟨m, hm, hrun⟩ := htb.take (s.lp.ran.length - js.length) (by omega)
  refine ⟨(pre ++ a).length + m, by omega, by simp; omega, ?_⟩
  have : S0.run ((pre ++ a ++ b).take ((pre ++ a).length + m)) = (S0.run pre).run (s.lp.ran.map (·.2.mutation)) := by
    have e1 : (pre ++ a ++ b).take ((pre ++ a).length + m) = pre ++ a ++ b.take m := by
      rw [List.take_append, List.take_of_length_le (by omega), Nat.add_sub_cancel_left]
    have e2 : (js ++ jb).take s.lp.ran.length = js ++ jb.take (s.lp.ran.length - js.length) := by
      rw [List.take_append, List.take_of_length_le hran]
    rw [hmap, hjs, e1, e2, run_append, run_append, run_append, hrun, hta.run_eq]
  rw [this]
  exact hg

theorem dat_run {E : Env ι} {S0 : Store} {K : Nat} (es : List (Ev ι)) {pre cs : List Mutation} {s s' : Inst ι}
    {rs : List (Out Unit)} (h : DAt E S0 K pre cs s) (he : ∀ e ∈ es, e.Ok E)
    (hroom : E.Room (K + cs.length + (calls es).length)) (hs : run E.codecs s es = some (s', rs)) :
    ∃ pre', pre <+: pre' ∧ DAt E S0 K pre' (cs ++ calls es) s' := by
  induction es generalizing s rs cs pre with
  | nil =>
    simp only [run, Option.some.injEq, Prod.mk.injEq] at hs
    obtain ⟨rfl, rfl⟩ := hs
    exact ⟨pre, ⟨[], by simp⟩, by simpa using h⟩
  | cons e es ih =>
    unfold run at hs
    split at hs
    · cases hs
    · rename_i s1 r hstep
      split at hs
      · cases hs
      · rename_i s2 rs2 hrun
        simp only [Option.some.injEq, Prod.mk.injEq] at hs
        obtain ⟨rfl, rfl⟩ := hs
        have hne : Nonempty ι := ⟨s.idx⟩
        rw [calls_cons] at hroom ⊢
        simp only [List.length_append] at hroom
        obtain ⟨_, pre1, hp1, hd1⟩ := dat_step h (he e List.mem_cons_self) (hroom.mono (by omega)) hstep
        have hpp : pre <+: pre1 := by
          rcases hp1 with ⟨rfl, _⟩ | rfl
          · exact ⟨[], by simp⟩
          · obtain ⟨post, _, _, _, hcs, _⟩ := h.ex; exact ⟨post, hcs.symm⟩
        obtain ⟨pre2, hp2, hd2⟩ := ih hd1 (fun e' he' => he e' (List.mem_cons_of_mem _ he'))
          (by simp only [List.length_append]; rw [show K + (cs.length + e.call?.toList.length) + (calls es).length =
                K + cs.length + (e.call?.toList.length + (calls es).length) by omega]; exact hroom) hrun
        exact ⟨pre2, hpp.trans hp2, by simpa using hd2⟩

theorem late_run {E : Env ι} {S0 : Store} {K : Nat} (es : List (Ev ι)) {pre a b js : List Mutation} {s s' : Inst ι}
    {rs : List (Out Unit)} {n : Nat} (h : DAt E S0 K pre (pre ++ a ++ b) s) (hj : Track (S0.run pre) a js)
    (hdue : Looper.Due js.length s.lp n) (he : ∀ e ∈ es, e.Ok E) (hn : n ≤ es.countP Ev.isIo)
    (hroom : E.Room (K + (pre ++ a ++ b).length + (calls es).length)) (hs : run E.codecs s es = some (s', rs))
    (i : ι) (hi : s'.lp.cb.removed = false → i = s'.idx) :
    ∃ m, (pre ++ a).length ≤ m ∧ m ≤ (pre ++ a ++ b ++ calls es).length ∧
      GoodFile E (E.codecs i) (K + (pre ++ a ++ b ++ calls es).length) s'.disk
        (S0.run ((pre ++ a ++ b ++ calls es).take m)) := by
  induction es generalizing s rs b n with
  | nil =>
    simp only [run, Option.some.injEq, Prod.mk.injEq] at hs
    obtain ⟨rfl, rfl⟩ := hs
    have hn0 : n = 0 := by simpa using hn
    subst hn0
    simpa [calls] using disk_at_least h hj hdue.zero i hi
  | cons e es ih =>
    unfold run at hs
    split at hs
    · cases hs
    · rename_i s1 r hstep
      split at hs
      · cases hs
      · rename_i s2 rs2 hrun
        simp only [Option.some.injEq, Prod.mk.injEq] at hs
        obtain ⟨rfl, rfl⟩ := hs
        have hne : Nonempty ι := ⟨s.idx⟩
        rw [calls_cons] at hroom ⊢
        simp only [List.length_append] at hroom
        obtain ⟨_, pre1, hp1, hd1⟩ := dat_step h (he e List.mem_cons_self)
          (hroom.mono (by simp only [List.length_append]; omega)) hstep
        have he' := fun e' he' => he e' (List.mem_cons_of_mem _ he')
        rcases hp1 with ⟨rfl, hph⟩ | rfl
        rotate_left
        · -- the thread is replaced: the file has been removed, and all calls before are settled
          obtain ⟨pre2, ⟨x, rfl⟩, hd2⟩ := dat_run es hd1 he'
            (by simp only [List.length_append]
                rw [show K + (pre.length + a.length + b.length + e.call?.toList.length) + (calls es).length =
                  K + (pre.length + a.length + b.length) + (e.call?.toList.length + (calls es).length) by omega]
                exact hroom) hrun
          obtain ⟨post, _, _, _, hcs, _⟩ := hd2.ex
          rw [hcs] at hd2
          have := disk_at_least (pre := pre ++ a ++ b ++ x) (b := post) (a := []) (js := []) (by rw [List.append_nil]; exact hd2) .nil (Nat.zero_le _) i hi
          obtain ⟨m, h1, h2, h3⟩ := this
          simp only [List.append_nil] at h1 h2 h3
          rw [← hcs] at h2 h3
          refine ⟨m, ?_, ?_, ?_⟩
          · simp only [List.length_append] at h1 ⊢; omega
          · simpa using h2
          · simpa using h3
        · obtain ⟨cb0, _, hinv⟩ := h.book.inv
          have hd := due_step hinv hdue hstep hph hd1.alive
          have hn' : (n - if e.isIo then 1 else 0) ≤ es.countP Ev.isIo := by
            rw [List.countP_cons] at hn
            omega
          have := ih (b := b ++ e.call?.toList) (by simpa using hd1) hd he' hn'
            (by simp only [List.length_append]
                rw [show K + (pre1.length + a.length + (b.length + e.call?.toList.length)) + (calls es).length =
                  K + (pre1.length + a.length + b.length) + (e.call?.toList.length + (calls es).length) by omega]
                exact hroom) hrun
          simpa using this

end Inst
end Mmkv
