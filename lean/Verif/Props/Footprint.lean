import Verif.Props.Latency
import Verif.Props.Failure
import Verif.Props.Bounded
import Verif.Props.EncLife2
/-!
# C88: how much memory a store takes

In memory a store has its map, and the records that wait to be written (`Inst.waiting`): those in the queue and those the background
thread has taken but not begun to apply.
-/

namespace Mmkv
open Spec Inst
variable {ι : Type}

/-- Records of the call under way that are not in the queue yet. -/
def Phase.held : Phase → Nat
  | .push _ => 1
  | .clrPush => 1
  | _ => 0

namespace Inst

theorem openAt_fresh {codecs : ι → Codec} {i : ι} {page : Nat} {file : Bytes} {u : Nat} {q : Option Nat} {s : Inst ι}
    (h : openAt codecs i page file u q = some s) : s.waiting = 0 ∧ s.phase = .idle ∧ s.kv.UniqueKeys := by
  unfold openAt at h
  split at h
  · cases h
  · rename_i o ho
    injection h with h
    subst h
    refine ⟨rfl, rfl, ?_⟩
    unfold openStore at ho
    simp only [] at ho
    split at ho
    · cases ho
    · split at ho
      · cases ho
      · rename_i items _
        injection ho with ho
        subst ho
        exact (MapWF.intoMap items).unique

theorem openAt_recv {codecs : ι → Codec} {i : ι} {page : Nat} {file : Bytes} {u : Nat} {q : Option Nat} {s : Inst ι}
    (h : openAt codecs i page file u q = some s) : s.lp.io = .recv := by
  unfold openAt at h
  split at h
  · cases h
  · injection h with h
    subst h
    rfl

theorem waiting_io {codecs : ι → Codec} {s : Inst ι} {o : Order} {lp : Looper.St Order Job Cb}
    (h : Looper.ioStep (fun o j cb => execJob (codecs s.idx) o j cb) o s.lp = some lp) :
    lp.buf.length + lp.queue.length ≤ s.waiting := by
  unfold Inst.waiting
  unfold Looper.ioStep at h
  split at h
  · split at h
    · injection h with h; subst h; simp
    · injection h with h; subst h; simp
    · split at h
      · cases h
      · injection h with h; subst h; simp
  · injection h with h; subst h; simp; omega
  · split at h
    · injection h with h; subst h; simp
    · rename_i hb
      split at h <;> (injection h with h; subst h; rw [hb]; simp)
  · injection h with h; subst h; simp
  · cases h
  · cases h

theorem waiting_push (s : Looper.St Order Job Cb) (j : Job) :
    (Looper.push s j).buf.length + (Looper.push s j).queue.length = s.buf.length + s.queue.length + 1 := by
  unfold Looper.push
  split <;> simp <;> omega

theorem waiting_send (s : Looper.St Order Job Cb) :
    (Looper.send s).1.buf = s.buf ∧ (Looper.send s).1.queue = s.queue ∧ (Looper.send s).1.io = s.io := by
  unfold Looper.send
  split
  · split <;> exact ⟨rfl, rfl, rfl⟩
  · exact ⟨rfl, rfl, rfl⟩

theorem waiting_quit (s : Looper.St Order Job Cb) : (Looper.quitSend s).1.buf = s.buf ∧ (Looper.quitSend s).1.queue = s.queue := by
  unfold Looper.quitSend
  split
  · split <;> exact ⟨rfl, rfl⟩
  · exact ⟨rfl, rfl⟩

/-- An event adds what its call hands over, and nothing else. -/
theorem footprint_step {codecs : ι → Codec} {s s' : Inst ι} {e : Ev ι} {r : Option (Out Unit)} (hu : s.kv.UniqueKeys)
    (hs : step codecs s e = some (s', r)) :
    s'.waiting + s'.phase.held ≤ s.waiting + s.phase.held + e.call?.toList.length ∧ s'.kv.UniqueKeys := by
  cases e with
  | put k t bs =>
    simp only [step] at hs
    split at hs
    · cases hs
    rename_i hg
    have hph : s.phase = .idle := by
      cases hp : s.phase <;> simp [hp] at hg ⊢
    split at hs
    · injection hs with hs; injection hs with h1 h2; subst h1; exact ⟨by omega, hu⟩
    split at hs
    · injection hs with hs; injection hs with h1 h2; subst h1; exact ⟨by omega, hu⟩
    · injection hs with hs; injection hs with h1 h2; subst h1
      exact ⟨by simp [hph, Phase.held, Inst.waiting, Ev.call?], KvMap.unique_insert hu _ _⟩
  | delete k =>
    simp only [step] at hs
    split at hs
    · cases hs
    rename_i hg
    have hph : s.phase = .idle := by
      cases hp : s.phase <;> simp [hp] at hg ⊢
    split at hs
    · injection hs with hs; injection hs with h1 h2; subst h1; exact ⟨by omega, hu⟩
    split at hs
    · injection hs with hs; injection hs with h1 h2; subst h1; exact ⟨by omega, hu⟩
    split at hs
    · injection hs with hs; injection hs with h1 h2; subst h1; exact ⟨by omega, hu⟩
    · injection hs with hs; injection hs with h1 h2; subst h1
      exact ⟨by simp [hph, Phase.held, Inst.waiting, Ev.call?], KvMap.unique_erase hu _⟩
  | clear =>
    simp only [step] at hs
    split at hs
    · cases hs
    rename_i hg
    have hph : s.phase = .idle := by
      cases hp : s.phase <;> simp [hp] at hg ⊢
    split at hs
    · injection hs with hs; injection hs with h1 h2; subst h1; exact ⟨by omega, hu⟩
    split at hs
    · injection hs with hs; injection hs with h1 h2; subst h1; exact ⟨by simp [hph, Phase.held, waiting], hu⟩
    · injection hs with hs; injection hs with h1 h2; subst h1
      exact ⟨by simp [hph, Phase.held, Inst.waiting, Ev.call?], by simp [KvMap.UniqueKeys]⟩
  | drop =>
    simp only [step] at hs
    split at hs
    · cases hs
    · injection hs with hs; injection hs with h1 h2; subst h1
      exact ⟨by simp [Phase.held, Inst.waiting, Looper.dropSender]; omega, hu⟩
  | io o =>
    simp only [step] at hs
    split at hs
    · cases hs
    · rename_i lp hlp
      injection hs with hs; injection hs with h1 h2; subst h1
      have := waiting_io hlp
      exact ⟨by simp only [Inst.waiting] at this ⊢; omega, hu⟩
  | api i =>
    simp only [step] at hs
    cases hp : s.phase <;> simp only [hp] at hs
    · cases hs
    · injection hs with hs; injection hs with h1 h2; subst h1
      exact ⟨by simp only [Phase.held, Inst.waiting, waiting_push]; omega, hu⟩
    · injection hs with hs; injection hs with h1 h2; subst h1
      exact ⟨by simp [Phase.held, Inst.waiting, waiting_send], hu⟩
    · injection hs with hs; injection hs with h1 h2; subst h1
      exact ⟨by simp only [Phase.held, Inst.waiting, waiting_push]; omega, hu⟩
    · split at hs <;> (injection hs with hs; injection hs with h1 h2; subst h1; exact ⟨by simp [Phase.held, Inst.waiting, waiting_send], hu⟩)
    · split at hs <;> (injection hs with hs; injection hs with h1 h2; subst h1; exact ⟨by simp [Phase.held, Inst.waiting, waiting_quit], hu⟩)
    · split at hs
      · injection hs with hs; injection hs with h1 h2; subst h1; exact ⟨by simp [Phase.held, waiting], hu⟩
      · split at hs
        · injection hs with hs; injection hs with h1 h2; subst h1; exact ⟨by simp [Phase.held, waiting], hu⟩
        · cases hs
    · split at hs
      · injection hs with hs; injection hs with h1 h2; subst h1; exact ⟨by simp [Phase.held, waiting], hu⟩
      · rename_i s1 ho
        obtain ⟨h1, h2, h3⟩ := openAt_fresh ho
        split at hs
        · injection hs with hs; injection hs with h4 h5; subst h4; exact ⟨by rw [h1, h2]; simp [Phase.held], h3⟩
        · split at hs
          · injection hs with hs; injection hs with h4 h5; subst h4; exact ⟨by rw [h1, h2]; simp [Phase.held], h3⟩
          · split at hs
            · injection hs with hs; injection hs with h4 h5; subst h4
              exact ⟨by simp only [Inst.waiting] at h1 ⊢; rw [h1, h2]; simp [Phase.held], h3⟩
            · cases hs
    · cases hs

theorem footprint_run {codecs : ι → Codec} (es : List (Ev ι)) : ∀ {s s' : Inst ι} {rs : List (Out Unit)}, s.kv.UniqueKeys →
    run codecs s es = some (s', rs) → s'.waiting + s'.phase.held ≤ s.waiting + s.phase.held + (calls es).length ∧ s'.kv.UniqueKeys := by
  induction es with
  | nil =>
    intro s s' rs hu hs
    simp only [run, Option.some.injEq, Prod.mk.injEq] at hs
    obtain ⟨rfl, rfl⟩ := hs
    exact ⟨by simp, hu⟩
  | cons e es ih =>
    intro s s' rs hu hs
    unfold run at hs
    split at hs
    · cases hs
    rename_i s1 r hstep
    split at hs
    · cases hs
    rename_i s2 rs2 hrun
    simp only [Option.some.injEq, Prod.mk.injEq] at hs
    obtain ⟨rfl, rfl⟩ := hs
    obtain ⟨h1, h2⟩ := footprint_step hu hstep
    obtain ⟨h3, h4⟩ := ih h2 hrun
    rw [calls_cons, List.length_append]
    exact ⟨by omega, h4⟩

end Inst

/-- **C88**, the part that holds of every store (any file, encrypted or not, however the calls ended): the map in memory has exactly
one entry for each live key, and no more records wait to be written than mutating calls were made. -/
theorem C88_partial {codecs : ι → Codec} {i : ι} {page : Nat} {file : Bytes} {u : Nat} {q : Option Nat} {s0 s : Inst ι}
    {es : List (Ev ι)} {rs : List (Out Unit)} (hopen : openAt codecs i page file u q = some s0)
    (hrun : run codecs s0 es = some (s, rs)) :
    (s.kv.map (·.1)).Nodup ∧ (∀ S, s.Shows S → s.poisoned = false → s.valid = true → ∀ k, k ∈ s.kv.map (·.1) ↔ S k ≠ none) ∧
      s.waiting ≤ (calls es).length := by
  obtain ⟨h1, h2, h3⟩ := openAt_fresh hopen
  obtain ⟨h4, h5⟩ := footprint_run es h3 hrun
  rw [h1, h2] at h4
  refine ⟨h5, fun S hS hp hv k => ?_, by simp only [Phase.held] at h4; omega⟩
  have hl := live_run es (live_open hopen) hrun
  rw [← (shows_iff hp hv hl).1 hS]
  constructor
  · intro hk
    obtain ⟨⟨k', b⟩, hm, rfl⟩ := List.mem_map.1 hk
    rw [view, KvMap.get_of_mem h5 hm]
    simp
  · intro hk
    rw [view] at hk
    cases hg : s.kv.get k with
    | none => rw [hg] at hk; exact absurd rfl hk
    | some b => exact List.mem_map.2 ⟨(k, b), KvMap.mem_of_get hg, rfl⟩

/-- **C88**, once the background thread has caught up: while every call returned `Ok`, when no call is under way and the background
thread has nothing to do (`recv` blocks), nothing waits, so the map is all the store has in memory. -/
theorem C88_at_rest_partial {codecs : ι → Codec} {i : ι} {page : Nat} {file : Bytes} {u : Nat} {q : Option Nat} {s0 s : Inst ι}
    {es : List (Ev ι)} {rs : List (Out Unit)} (hopen : openAt codecs i page file u q = some s0)
    (hrun : run codecs s0 es = some (s, rs)) (hok : ∀ r ∈ rs, r = .ok ()) (hidle : s.phase = .idle)
    (halive : s.lp.io ≠ .unwinding ∧ s.lp.io ≠ .dead) (hblocked : ∀ o, step codecs s (.io o) = none) : s.waiting = 0 := by
  obtain ⟨hb, _⟩ := book_run es (book_open hopen) hrun hok
  obtain ⟨cb0, _, hinv⟩ := hb.inv
  have hsend : s.lp.sender = true := by rw [hb.sender, hidle]; rfl
  have howed : s.lp.owed = 0 := by rw [hb.owed, hidle]; rfl
  have h1 := congrArg List.length hinv.split
  simp only [List.length_append, List.length_map, hb.late, List.length_nil] at h1
  have hbl := hblocked id
  simp only [step] at hbl
  cases hio : Looper.ioStep (fun o j cb => execJob (codecs s.idx) o j cb) id s.lp with
  | some lp => rw [hio] at hbl; cases hbl
  | none =>
    unfold Looper.ioStep at hio
    split at hio
    · rename_i hr
      split at hio
      · cases hio
      · cases hio
      · rename_i hc
        have hbuf := hinv.bufEmpty (.inl hr)
        have hw := hinv.wake
        rw [hr, hc, howed, hbuf] at hw
        simp at hw
        rw [hbuf, List.length_nil] at h1
        simp only [Inst.waiting, hbuf, List.length_nil]
        omega
    · cases hio
    · split at hio
      · cases hio
      · split at hio <;> cases hio
    · cases hio
    · rename_i hx
      rw [(hinv.exitedClosed hx).1] at hsend; cases hsend
    · rename_i hx
      exact absurd hx halive.2

/-! ### What does not hold -/

/-- `N` puts of the same key, one after the other, without a step of the background thread. -/
def hurriedPuts (k : String) (t : BitVec 32) (bs : Bytes) (n : Nat) : List (Ev Unit) := (List.replicate n [.put k t bs, .api (), .api ()]).flatten

theorem hurried_calls (k : String) (t : BitVec 32) (bs : Bytes) (n : Nat) :
    calls (hurriedPuts k t bs n) = List.replicate n (.put k ⟨t, bs⟩) := by
  induction n with
  | zero => rfl
  | succ n ih =>
    unfold hurriedPuts at ih ⊢
    rw [List.replicate_succ, List.flatten_cons]
    simp only [List.cons_append, List.nil_append, calls_cons, Ev.call?, Option.toList]
    rw [ih, List.replicate_succ]

/-- The store is open, and no call is under way. -/
structure Quiescent (s : Inst Unit) : Prop where
  phase : s.phase = .idle
  poisoned : s.poisoned = false
  valid : s.valid = true

theorem hurried_run {k : String} {t : BitVec 32} {bs : Bytes} (ht : tokenOk t = true) (r : Out Unit) (p : Looper.St Order Job Cb → Prop)
    (hp : ∀ lp j, p lp → p (Looper.send (Looper.push lp j)).1 ∧ r = if (Looper.send (Looper.push lp j)).2 then .ok () else .err ioErr) (n : Nat) :
    ∀ {s : Inst Unit}, Quiescent s → p s.lp → ∃ s', run plain s (hurriedPuts k t bs n) = some (s', List.replicate n r) ∧ Quiescent s' ∧ p s'.lp ∧
      s'.waiting = s.waiting + n := by
  induction n with
  | zero => intro s hc hs; exact ⟨s, rfl, hc, hs, rfl⟩
  | succ n ih =>
    intro s hc hs
    let j : Job := .write (Buffer.ofRaw k t bs) (s.kv.get k).isSome
    obtain ⟨h1, h2⟩ := hp s.lp j hs
    let s1 : Inst Unit := { s with kv := s.kv.insert k (Buffer.ofRaw k t bs), phase := .idle, lp := (Looper.send (Looper.push s.lp j)).1 }
    have hc1 : Quiescent s1 := ⟨rfl, hc.poisoned, hc.valid⟩
    obtain ⟨s', g1, g2, g3, g4⟩ := ih hc1 h1
    refine ⟨s', ?_, g2, g3, ?_⟩
    · have hcons : hurriedPuts k t bs (n + 1) = .put k t bs :: .api () :: .api () :: hurriedPuts k t bs n := by
        unfold hurriedPuts
        rw [List.replicate_succ, List.flatten_cons]; rfl
      have e1 : step plain s (.put k t bs) = some ({ s with kv := s.kv.insert k (Buffer.ofRaw k t bs), phase := .push j }, none) := by
        simp [step, hc.phase, hc.poisoned, hc.valid, ht, j]
      have e2 : step plain { s with kv := s.kv.insert k (Buffer.ofRaw k t bs), phase := .push j } (.api ()) =
          some ({ s with kv := s.kv.insert k (Buffer.ofRaw k t bs), lp := Looper.push s.lp j, phase := .send }, none) := rfl
      have e3 : step plain { s with kv := s.kv.insert k (Buffer.ofRaw k t bs), lp := Looper.push s.lp j, phase := .send } (.api ()) =
          some (s1, some r) := by
        rw [h2]; rfl
      rw [hcons]
      simp only [run, e1, e2, e3, g1]
      rw [List.replicate_succ]; rfl
    · rw [g4]
      have h5 := waiting_send (Looper.push s.lp j)
      have h6 := waiting_push s.lp j
      simp only [Inst.waiting, s1, h5.1, h5.2.1]
      omega

/-- **C88 is false of the program**: for every `N`, on a fresh store, `N` puts of the same key can all return `Ok` and leave a store that
holds one entry, and `N` records in memory: nothing limits the queue of the background thread. -/
theorem C88_refuted (N : Nat) : ∃ s0 s, openAt plain () 64 [] = some s0 ∧
    run plain s0 (hurriedPuts "k" 0 [0, 0, 0, 7] (N + 1)) = some (s, List.replicate (N + 1) (.ok ())) ∧
    calls (hurriedPuts "k" 0 [0, 0, 0, 7] (N + 1)) = List.replicate (N + 1) (.put "k" ⟨0, [0, 0, 0, 7]⟩) ∧
    s.Shows (Store.empty.apply (.put "k" ⟨0, [0, 0, 0, 7]⟩)) ∧ s.waiting = N + 1 := by
  obtain ⟨s0, h0, hd, _⟩ := dinv_open (i := ()) (GoodFile.empty (E := plainEnv 64 (by decide) False) (c := plain ()) (K := 0))
  have h0 : openAt plain () 64 [] = some s0 := h0
  have hb := book_open h0
  obtain ⟨f1, f2, _⟩ := openAt_fresh h0
  have hc : Quiescent s0 := ⟨f2, hb.poisoned, by rw [hb.valid, f2]; rfl⟩
  obtain ⟨s, g1, g2, _, g4⟩ := hurried_run (k := "k") (t := 0) (bs := [0, 0, 0, 7]) (by decide) (.ok ())
    (fun lp => lp.sender = true ∧ lp.io = .recv)
    (by
      rintro lp j ⟨h1, h2⟩
      simp [Looper.push, Looper.send, h1, h2]) (N + 1) hc ⟨by rw [hb.sender, f2]; rfl, openAt_recv h0⟩
  refine ⟨s0, s, h0, g1, hurried_calls _ _ _ _, ?_, by rw [g4, f1]; omega⟩
  have hv := (book_run _ hb g1 (by intro x hx; exact List.eq_of_mem_replicate hx)).2
  rw [hurried_calls, hd.kvView] at hv
  refine (shows_iff g2.poisoned g2.valid (live_run _ (live_open h0) g1)).2 ?_
  rw [hv]
  have hrep : ∀ n (S : Store), S.run (List.replicate (n + 1) (.put "k" ⟨0, [0, 0, 0, 7]⟩)) = S.apply (.put "k" ⟨0, [0, 0, 0, 7]⟩) := by
    intro n
    induction n with
    | zero => intro S; rfl
    | succ n ih =>
      intro S
      rw [List.replicate_succ]
      show (S.apply _).run _ = _
      rw [ih, put_put]
  exact hrep N _

/-- A store whose background thread has died keeps every record handed to it, until `clear_data` is called or it is dropped. -/
theorem dead_keeps {codecs : ι → Codec} (es : List (Ev ι)) : ∀ {s s' : Inst ι} {rs : List (Out Unit)},
    (s.phase = .idle ∨ (∃ j, s.phase = .push j) ∨ s.phase = .send) → s.lp.io = .dead → (∀ e ∈ es, e ≠ .clear ∧ e ≠ .drop) →
    run codecs s es = some (s', rs) → s.waiting ≤ s'.waiting := by
  induction es with
  | nil =>
    intro s s' rs _ _ _ hs
    simp only [run, Option.some.injEq, Prod.mk.injEq] at hs
    obtain ⟨rfl, rfl⟩ := hs
    exact Nat.le_refl _
  | cons e es ih =>
    intro s s' rs hp hd hes hs
    unfold run at hs
    split at hs
    · cases hs
    rename_i s1 r hstep
    split at hs
    · cases hs
    rename_i s2 rs2 hrun
    simp only [Option.some.injEq, Prod.mk.injEq] at hs
    obtain ⟨rfl, rfl⟩ := hs
    have key : (s1.phase = .idle ∨ (∃ j, s1.phase = .push j) ∨ s1.phase = .send) ∧ s1.lp.io = .dead ∧ s.waiting ≤ s1.waiting := by
      cases e with
      | put k t bs =>
        simp only [step] at hstep
        repeat' split at hstep
        all_goals first | cases hstep; done | (injection hstep with h; injection h with h1 h2; subst h1)
        · exact ⟨hp, hd, Nat.le_refl _⟩
        · exact ⟨hp, hd, Nat.le_refl _⟩
        · exact ⟨.inr (.inl ⟨_, rfl⟩), hd, Nat.le_refl _⟩
      | delete k =>
        simp only [step] at hstep
        repeat' split at hstep
        all_goals first | cases hstep; done | (injection hstep with h; injection h with h1 h2; subst h1)
        · exact ⟨hp, hd, Nat.le_refl _⟩
        · exact ⟨hp, hd, Nat.le_refl _⟩
        · exact ⟨hp, hd, Nat.le_refl _⟩
        · exact ⟨.inr (.inl ⟨_, rfl⟩), hd, Nat.le_refl _⟩
      | clear => exact absurd rfl (hes _ List.mem_cons_self).1
      | drop => exact absurd rfl (hes _ List.mem_cons_self).2
      | io o => simp [step, Looper.ioStep, hd] at hstep
      | api i =>
        rcases hp with hp | ⟨j, hp⟩ | hp
        · simp [step, hp] at hstep
        · simp only [step, hp, Option.some.injEq, Prod.mk.injEq] at hstep
          obtain ⟨rfl, _⟩ := hstep
          refine ⟨.inr (.inr rfl), ?_, ?_⟩
          · simp only [Looper.push]; split <;> exact hd
          · simp only [Inst.waiting, waiting_push]; omega
        · simp only [step, hp, Option.some.injEq, Prod.mk.injEq] at hstep
          obtain ⟨rfl, _⟩ := hstep
          have := waiting_send s.lp
          exact ⟨.inl rfl, by rw [← hd]; exact this.2.2, by simp only [Inst.waiting, this.1, this.2.1]; exact Nat.le_refl _⟩
    obtain ⟨h1, h2, h3⟩ := key
    exact Nat.le_trans h3 (ih h1 h2 (fun e he => hes e (List.mem_cons_of_mem _ he)) hrun)

/-- **C88 is false also of calls that fail**: once the background thread has died (here: of a value that does not fit a page, C11), each
failing `put` leaves its record in memory, `N` of them for any `N`, and they stay there whatever is called, short of `clear_data` and
the drop of the store. -/
theorem C88_refuted_failed (N : Nat) : ∃ s0 s es rs, openAt plain () 64 [] = some s0 ∧
    run plain s0 (es ++ hurriedPuts "k" 0 [0, 0, 0, 7] N) = some (s, rs ++ List.replicate N (.err ioErr)) ∧ N ≤ s.waiting ∧
    ∀ es' s' rs', (∀ e ∈ es', e ≠ .clear ∧ e ≠ .drop) → run plain s es' = some (s', rs') → N ≤ s'.waiting := by
  have h : passes (fresh64 [.put "big" 6 (List.replicate 200 7), .api (), .api (), .io id, .io id, .io id, .io id]) (fun s _ =>
      s.lp.io == .dead && s.lp.sender && s.phase == .idle && !s.poisoned && s.valid) = true := by decide +kernel
  obtain ⟨s1, rs, hr, hp⟩ := exists_of_passes h
  simp only [Bool.and_eq_true, beq_iff_eq, Bool.not_eq_true'] at hp
  obtain ⟨⟨⟨⟨h1, h2⟩, h3⟩, h4⟩, h5⟩ := hp
  unfold fresh64 at hr
  split at hr
  · cases hr
  rename_i s0 h0
  obtain ⟨s, g1, g2, g3, g4⟩ := hurried_run (k := "k") (t := 0) (bs := [0, 0, 0, 7]) (by decide) (.err ioErr)
    (fun lp => lp.sender = true ∧ lp.io = .dead)
    (by
      rintro lp j ⟨h1, h2⟩
      simp [Looper.push, Looper.send, h1, h2]) N ⟨h3, h4, h5⟩ ⟨h2, h1⟩
  refine ⟨s0, s, _, rs, h0, inst_run_append _ _ hr g1, by omega, fun es' s' rs' he hr' => ?_⟩
  have := dead_keeps es' (.inl g2.phase) g3.2 he hr'
  omega

/-- The hypotheses of `C88_at_rest_partial` are met: three puts, the background thread has caught up. -/
example : ∃ s rs, fresh64 (fullPut "a" 1 [97] ++ fullPut "b" 1 [98] ++ fullPut "a" 1 [99]) = some (s, rs) ∧ (∀ r ∈ rs, r = .ok ()) ∧ s.phase = .idle ∧
    (s.lp.io ≠ .unwinding ∧ s.lp.io ≠ .dead) ∧ (∀ o, step plain s (.io o) = none) ∧ s.kv.length = 2 := by
  have h : passes (fresh64 (fullPut "a" 1 [97] ++ fullPut "b" 1 [98] ++ fullPut "a" 1 [99])) (fun s rs =>
      (rs.all fun r => r == .ok ()) && s.phase == .idle && s.lp.io == .recv && s.lp.chan == [] && s.lp.sender && s.kv.length == 2) = true := by decide +kernel
  obtain ⟨s, rs, hr, hp⟩ := exists_of_passes h
  simp only [Bool.and_eq_true, beq_iff_eq, List.all_eq_true] at hp
  obtain ⟨⟨⟨⟨⟨h1, h2⟩, h3⟩, h4⟩, h5⟩, h6⟩ := hp
  exact ⟨s, rs, hr, h1, h2, by rw [h3]; simp, fun o => by simp [step, Looper.ioStep, h3, h4, h5], h6⟩

end Mmkv
