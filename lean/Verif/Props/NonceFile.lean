import Verif.Model.NonceFile
import Verif.Props.Encrypt
/-!
# clear_data and the nonce: C69
-/

namespace Mmkv
open Spec Inst

namespace EncProc

/-- The nonce file fits the data file. -/
structure Fit (s : EncProc) : Prop where
  key : s.inst.idx.1 = s.key
  len : s.nonce.length = nonceLen
  file : s.nonceFile = if s.inst.lp.cb.removed then none else some s.nonce

theorem ioStep_removed {C : Cipher} {s s' : Inst (Bytes × Bytes)} {o : Order} {r : Option (Out Unit)}
    (hs : Inst.step (encrypted C) s (.io o) = some (s', r)) :
    s'.idx = s.idx ∧ (s.lp.cb.removed = true → s'.lp.cb.removed = true) ∧ s'.phase = s.phase ∧ s'.poisoned = s.poisoned := by
  simp only [Inst.step] at hs
  split at hs
  · cases hs
  rename_i lp hlp
  simp only [Option.some.injEq, Prod.mk.injEq] at hs
  obtain ⟨rfl, rfl⟩ := hs
  refine ⟨rfl, ?_, rfl, rfl⟩
  unfold Looper.ioStep at hlp
  have hex : ∀ o j (cb cb' : Cb), (execJob (encrypted C s.idx) o j cb = .done cb' ∨ execJob (encrypted C s.idx) o j cb = .panic cb') →
      cb.removed = true → cb'.removed = true := by
    intro o j cb cb' h hr
    cases j with
    | remove =>
      simp only [execJob, Run.done.injEq] at h
      rcases h with h | h
      · subst h; rfl
      · cases h
    | write b dup =>
      simp only [execJob] at h
      split at h
      · rcases h with h | h
        · injection h with h; subst h; exact hr
        · cases h
      · rcases h with h | h
        · cases h
        · injection h with h; subst h; exact hr
  repeat' split at hlp
  all_goals first
    | cases hlp; done
    | (injection hlp with hlp; subst hlp; exact id)
    | skip
  · rename_i hx
    injection hlp with hlp; subst hlp
    exact hex _ _ _ _ (.inl hx)
  · rename_i hx
    injection hlp with hlp; subst hlp
    exact hex _ _ _ _ (.inr hx)

/-- Steps of calls other than the last one of `clear_data`, and the beginnings of calls. -/
theorem other_step {C : Cipher} {s s' : Inst (Bytes × Bytes)} {e : Ev (Bytes × Bytes)} {r : Option (Out Unit)}
    (hs : Inst.step (encrypted C) s e = some (s', r)) (hio : ∀ o, e ≠ .io o) (hopen : ∀ i, e = .api i → s.phase ≠ .clrOpen) :
    s'.idx = s.idx ∧ s'.lp.cb = s.lp.cb ∧ s'.poisoned = s.poisoned ∧
      (s.poisoned = true → (s.phase = .idle ∨ s.phase = .closed) → s'.phase = .idle ∨ s'.phase = .closed) := by
  cases e with
  | io o => exact absurd rfl (hio o)
  | api i =>
    have hp := hopen i rfl
    simp only [Inst.step] at hs
    have hpush : ∀ j, (Looper.push s.lp j).cb = s.lp.cb := by intro j; unfold Looper.push; split <;> rfl
    have hsend : (Looper.send s.lp).1.cb = s.lp.cb := by unfold Looper.send; split <;> (try split) <;> rfl
    have hquit : (Looper.quitSend s.lp).1.cb = s.lp.cb := by unfold Looper.quitSend; split <;> (try split) <;> rfl
    cases hph : s.phase <;> simp only [hph] at hs hp
    all_goals try exact absurd rfl hp
    all_goals
      repeat' split at hs
      all_goals first
        | cases hs; done
        | (injection hs with hs; injection hs with h1 h2; subst h1; simp [hpush, hsend, hquit])
  | put k t bs =>
    simp only [Inst.step] at hs
    repeat' split at hs
    all_goals first
      | cases hs; done
      | (injection hs with hs; injection hs with h1 h2; subst h1; simp_all)
  | delete k =>
    simp only [Inst.step] at hs
    repeat' split at hs
    all_goals first
      | cases hs; done
      | (injection hs with hs; injection hs with h1 h2; subst h1; simp_all)
  | clear =>
    simp only [Inst.step] at hs
    repeat' split at hs
    all_goals first
      | cases hs; done
      | (injection hs with hs; injection hs with h1 h2; subst h1; simp_all)
  | drop =>
    simp only [Inst.step] at hs
    repeat' split at hs
    all_goals first
      | cases hs; done
      | (injection hs with hs; injection hs with h1 h2; subst h1; simp_all [Looper.dropSender])

/-- The last step of `clear_data`. -/
theorem open_step {C : Cipher} {s s' : Inst (Bytes × Bytes)} {i : Bytes × Bytes} {r : Option (Out Unit)}
    (hs : Inst.step (encrypted C) s (.api i) = some (s', r)) (hph : s.phase = .clrOpen) :
    s'.phase = .idle ∧ (s'.poisoned = true ∨
      (s'.idx = (if s.lp.cb.removed then i else s.idx) ∧ s'.lp.cb.removed = false)) ∧
      (r = some (.ok ()) → s'.poisoned = false) ∧ r.isSome ∧ (s'.poisoned = true → r = some .panic) := by
  simp only [Inst.step, hph] at hs
  generalize (if s.lp.cb.removed = true then i else s.idx) = j at hs ⊢
  split at hs
  · injection hs with hs; injection hs with h1 h2; subst h1 h2; simp
  · rename_i s1 ho
    unfold openAt at ho
    split at ho
    · cases ho
    · injection ho with ho
      subst ho
      repeat' split at hs
      all_goals first
        | cases hs; done
        | (injection hs with hs; injection hs with h1 h2; subst h1 h2; simp [Looper.new])

/-- Invariant: a store nothing has panicked in has the nonce file its data belong to. -/
def Good (s : EncProc) : Prop :=
  (s.inst.poisoned = true ∧ (s.inst.phase = .idle ∨ s.inst.phase = .closed)) ∨ (s.inst.poisoned = false ∧ Fit s)

theorem good_open {C : Cipher} {page : Nat} {key : String} {rand : Bytes} {d : EncDir} {s : EncProc}
    (ho : openDir C page key rand d = some s) (hr : rand.length = nonceLen) :
    Good s ∧ s.nonce = initNonce d.nonceFile rand ∧ s.inst.lp.cb.removed = false ∧ decodeKey key = some s.key ∧
      s.inst.poisoned = false ∧ s.inst.phase = .idle := by
  unfold openDir at ho
  split at ho
  · rename_i k s1 hk hs1
    injection ho with ho
    subst ho
    rw [openEnc_eq hk] at hs1
    unfold openAt at hs1
    split at hs1
    · cases hs1
    · injection hs1 with hs1
      subst hs1
      exact ⟨.inr ⟨rfl, rfl, initNonce_length hr, rfl⟩, rfl, rfl, hk, rfl, rfl⟩
  · cases ho

/-- What one event does to the nonce in use. -/
theorem good_step {C : Cipher} {s s' : EncProc} {e : Ev Bytes} {r : Option (Out Unit)} (h : Good s)
    (hr : ∀ rand, e = .api rand → rand.length = nonceLen) (hs : step C s e = some (s', r)) :
    Good s' ∧ (s.inst.poisoned = true → s'.inst.poisoned = true) ∧ s'.key = s.key ∧
      (s'.inst.poisoned = false →
        (s'.nonce = s.nonce ∧ (s'.inst.lp.cb.removed = false → s.inst.lp.cb.removed = false)) ∨
        ∃ rand, e = .api rand ∧ s.inst.phase = .clrOpen ∧ s.inst.lp.cb.removed = true ∧ s'.nonce = rand ∧
          s'.inst.lp.cb.removed = false) := by
  unfold step at hs
  split at hs
  · cases hs
  rename_i i r' hst
  simp only [Option.some.injEq, Prod.mk.injEq] at hs
  obtain ⟨hs', rfl⟩ := hs
  have quiet : (∀ o, s.event e ≠ .io o) → (∀ j, s.event e = .api j → s.inst.phase ≠ .clrOpen) →
      s' = ⟨i, s.key, s.nonceFile⟩ → _ := fun h1 h2 he => by
    obtain ⟨g1, g2, g3, g4⟩ := other_step hst h1 h2
    have hgood : Good s' := by
      subst he
      rcases h with ⟨hp, hph⟩ | ⟨hp, hf⟩
      · exact .inl ⟨by rw [g3]; exact hp, g4 hp hph⟩
      · refine .inr ⟨by rw [g3]; exact hp, by rw [g1]; exact hf.key, by unfold nonce; rw [g1]; exact hf.len, ?_⟩
        show s.nonceFile = if i.lp.cb.removed then none else some i.idx.2
        rw [g1, g2]
        exact hf.file
    refine (⟨hgood, ?_, ?_, ?_⟩ : Good s' ∧ (s.inst.poisoned = true → s'.inst.poisoned = true) ∧ s'.key = s.key ∧
      (s'.inst.poisoned = false →
        (s'.nonce = s.nonce ∧ (s'.inst.lp.cb.removed = false → s.inst.lp.cb.removed = false)) ∨
        ∃ rand, e = .api rand ∧ s.inst.phase = .clrOpen ∧ s.inst.lp.cb.removed = true ∧ s'.nonce = rand ∧
          s'.inst.lp.cb.removed = false))
    · subst he; intro hp; show i.poisoned = true; rw [g3]; exact hp
    · subst he; rfl
    · subst he; intro _; exact .inl ⟨by unfold nonce; rw [g1], by rw [g2]; exact id⟩
  cases e with
  | put k t bs => exact quiet (by simp [event]) (by simp [event]) hs'.symm
  | delete k => exact quiet (by simp [event]) (by simp [event]) hs'.symm
  | clear => exact quiet (by simp [event]) (by simp [event]) hs'.symm
  | drop => exact quiet (by simp [event]) (by simp [event]) hs'.symm
  | io o =>
    obtain ⟨g1, g2, g3, g4⟩ := ioStep_removed hst
    simp only at hs'
    subst hs'
    refine ⟨?_, fun hp => by show i.poisoned = true; rw [g4]; exact hp, rfl, fun _ => .inl ⟨by unfold nonce; rw [g1], ?_⟩⟩
    · rcases h with ⟨hp, hph⟩ | ⟨hp, hf⟩
      · exact .inl ⟨by show i.poisoned = true; rw [g4]; exact hp, by show i.phase = .idle ∨ i.phase = .closed; rw [g3]; exact hph⟩
      · refine .inr ⟨by show i.poisoned = false; rw [g4]; exact hp, by rw [g1]; exact hf.key, by unfold nonce; rw [g1]; exact hf.len, ?_⟩
        show (if s.inst.lp.cb.removed = false ∧ i.lp.cb.removed = true then none else s.nonceFile) =
          if i.lp.cb.removed then none else some i.idx.2
        rw [g1, hf.file]
        cases h1 : s.inst.lp.cb.removed <;> cases h2 : i.lp.cb.removed <;> simp_all [nonce]
    · intro h2
      cases h1 : s.inst.lp.cb.removed with
      | false => rfl
      | true => rw [g2 h1] at h2; cases h2
  | api rand =>
    by_cases hph : s.inst.phase = .clrOpen
    · obtain ⟨g1, g2, g3, _⟩ := open_step hst hph
      have hnp : s.inst.poisoned = false := by
        rcases h with ⟨_, hp⟩ | ⟨hp, _⟩
        · rw [hph] at hp; simp at hp
        · exact hp
      have hf : Fit s := by
        rcases h with ⟨hp, _⟩ | ⟨_, hf⟩
        · rw [hnp] at hp; cases hp
        · exact hf
      simp only [hph, if_true] at hs'
      subst hs'
      rcases g2 with hp | ⟨hi, hrm⟩
      · exact ⟨.inl ⟨hp, .inl g1⟩, fun _ => hp, rfl, fun hq => by rw [hp] at hq; cases hq⟩
      · have hidx : i.idx = (s.key, initNonce s.nonceFile rand) := by
          rw [hi]
          split
          · rfl
          · rename_i hr'
            have : s.nonceFile = some s.nonce := by rw [hf.file]; simp [hr']
            rw [this]
            simp only [initNonce, hf.len, if_true]
            rw [← hf.key]
            rfl
        refine ⟨?_, fun hp => (by rw [hnp] at hp; cases hp), rfl, fun _ => ?_⟩
        · cases hp : i.poisoned with
          | true => exact .inl ⟨hp, .inl g1⟩
          | false =>
            refine .inr ⟨hp, by rw [hidx], ?_, ?_⟩
            · show i.idx.2.length = nonceLen
              rw [hidx]
              exact initNonce_length (hr rand rfl)
            · show some (initNonce s.nonceFile rand) = if i.lp.cb.removed then none else some i.idx.2
              rw [hrm, hidx]
              simp
        · cases hr' : s.inst.lp.cb.removed with
          | false =>
            left
            refine ⟨?_, fun _ => rfl⟩
            show i.idx.2 = s.inst.idx.2
            rw [hi, hr']
            simp
          | true =>
            right
            refine ⟨rand, rfl, hph, rfl, ?_, hrm⟩
            show i.idx.2 = rand
            rw [hidx, hf.file, hr']
            rfl
    · refine quiet (by simp [event]) (fun _ _ => hph) ?_
      simp only [hph, if_false] at hs'
      exact hs'.symm

theorem good_run {C : Cipher} (es : List (Ev Bytes)) {s s' : EncProc} {rs : List (Out Unit)} (h : Good s)
    (hr : ∀ rand, Ev.api rand ∈ es → rand.length = nonceLen) (hs : run C s es = some (s', rs)) :
    Good s' ∧ (s.inst.poisoned = true → s'.inst.poisoned = true) ∧ s'.key = s.key := by
  induction es generalizing s rs with
  | nil =>
    simp only [run, Option.some.injEq, Prod.mk.injEq] at hs
    obtain ⟨rfl, rfl⟩ := hs
    exact ⟨h, id, rfl⟩
  | cons e es ih =>
    unfold run at hs
    split at hs
    · cases hs
    · rename_i s1 r hstep
      split at hs
      · cases hs
      · rename_i s2 rs2 hrun
        simp only [Option.some.injEq, Prod.mk.injEq] at hs
        obtain ⟨rfl, rfl⟩ := hs
        obtain ⟨g1, g2, g3, _⟩ := good_step h (fun rand he => hr rand (by simp [he])) hstep
        obtain ⟨k1, k2, k3⟩ := ih g1 (fun rand he => hr rand (List.mem_cons_of_mem _ he)) hrun
        exact ⟨k1, fun hp => k2 (g2 hp), k3.trans g3⟩

theorem clear_call (s : EncProc) (e : Ev Bytes) : (s.event e).call? = e.call? := by cases e <;> rfl

/-- A run with the nonce file is a run of the store. -/
theorem inst_run {C : Cipher} (es : List (Ev Bytes)) {s s' : EncProc} {rs : List (Out Unit)} (hs : run C s es = some (s', rs)) :
    ∃ es', Inst.run (encrypted C) s.inst es' = some (s'.inst, rs) ∧ calls es' = calls es := by
  induction es generalizing s rs with
  | nil =>
    simp only [run, Option.some.injEq, Prod.mk.injEq] at hs
    obtain ⟨rfl, rfl⟩ := hs
    exact ⟨[], rfl, rfl⟩
  | cons e es ih =>
    unfold run at hs
    split at hs
    · cases hs
    · rename_i s1 r hstep
      split at hs
      · cases hs
      · rename_i s2 rs2 hrun
        simp only [Option.some.injEq, Prod.mk.injEq] at hs
        obtain ⟨rfl, rfl⟩ := hs
        obtain ⟨es', h1, h2⟩ := ih hrun
        unfold step at hstep
        split at hstep
        · cases hstep
        · rename_i i r' hst
          simp only [Option.some.injEq, Prod.mk.injEq] at hstep
          obtain ⟨hs1, rfl⟩ := hstep
          have hi : s1.inst = i := by rw [← hs1]
          rw [hi] at h1
          refine ⟨s.event e :: es', ?_, ?_⟩
          · simp [Inst.run, hst, h1]
          · rw [calls_cons, calls_cons, h2, clear_call]

theorem openDir_inst {C : Cipher} {page : Nat} {key : String} {rand : Bytes} {d : EncDir} {s : EncProc}
    (ho : openDir C page key rand d = some s) : openEnc C page key rand d = some s.inst := by
  unfold openDir at ho
  split at ho
  · rename_i k s1 hk hs1
    injection ho with ho
    subst ho
    exact hs1
  · cases ho

theorem openEnc_book {C : Cipher} {page : Nat} {key : String} {rand : Bytes} {d : EncDir} {s : Inst (Bytes × Bytes)}
    (ho : openEnc C page key rand d = some s) : Book (encrypted C) s := by
  unfold openEnc at ho
  split at ho
  · cases ho
  · exact book_open ho

end EncProc

open EncProc

/-- **C69** (everything but the kill between the two removals), inside a session: open a directory, with anything in it; make
any calls, all of which return `Ok`, in any schedule.  When a `clear_data` returns `Ok`, the store it leaves uses the nonce the
generator has yielded in that very call, and so does the nonce file. -/
theorem C69_partial_clear_renews (C : Cipher) {page : Nat} {key : String} {rand0 rand : Bytes} {d : EncDir} {s0 s s' : EncProc}
    {es : List (Ev Bytes)} {rs : List (Out Unit)} (hopen : openDir C page key rand0 d = some s0)
    (hrun : EncProc.run C s0 es = some (s, rs)) (hok : ∀ r ∈ rs, r = .ok ()) (hclr : s.inst.phase.clearing = true)
    (hstep : EncProc.step C s (.api rand) = some (s', some (.ok ())))
    (hr0 : rand0.length = nonceLen) (hr : ∀ r, Ev.api r ∈ es → r.length = nonceLen) (hr1 : rand.length = nonceLen) :
    s'.nonce = rand ∧ s'.nonceFile = some rand := by
  obtain ⟨hg0, _⟩ := good_open hopen hr0
  obtain ⟨hg, _, _⟩ := good_run es hg0 hr hrun
  obtain ⟨es', hi, _⟩ := inst_run es hrun
  obtain ⟨hb, _⟩ := book_run es' (openEnc_book (openDir_inst hopen)) hi hok
  obtain ⟨hg', _, _, hcase⟩ := good_step hg (fun r he => by injection he with he; subst he; exact hr1) hstep
  have hph : s.inst.phase = .clrOpen := by
    unfold EncProc.step at hstep
    split at hstep
    · cases hstep
    · rename_i i r' hst
      simp only [Option.some.injEq, Prod.mk.injEq] at hstep
      obtain ⟨_, hr'⟩ := hstep
      simp only [event, Inst.step] at hst
      cases hp : s.inst.phase <;> simp only [hp] at hst hclr
      case clrOpen => rfl
      all_goals first
        | cases hclr; done
        | (repeat' split at hst
           all_goals first
             | cases hst; done
             | (injection hst with hst; injection hst with h1 h2; rw [← h2] at hr'; simp at hr'))
  have hrm : s.inst.lp.cb.removed = true := by
    obtain ⟨hex, _⟩ := hb.joined hph
    obtain ⟨cb0, _, hinv⟩ := hb.inv
    have hpre := hinv.ran_prefix
    rw [hb.late, List.append_nil] at hpre
    have heq := hpre.eq_of_length_le (hinv.exited_all hex).length_le
    obtain ⟨W, hW, _⟩ := hb.jobsC hclr
    rw [hb.removed, heq]
    have : s.inst.jobs = s.inst.lp.pushed := by simp [jobs, hph, Phase.inflight]
    rw [← this, hW]
    simp
  have hnp : s'.inst.poisoned = false := by
    unfold EncProc.step at hstep
    split at hstep
    · cases hstep
    · rename_i i r' hst
      simp only [Option.some.injEq, Prod.mk.injEq] at hstep
      obtain ⟨h1, rfl⟩ := hstep
      rw [← h1]
      exact (open_step hst hph).2.2.1 rfl
  have hnon : s'.nonce = rand ∧ s'.inst.lp.cb.removed = false := by
    rcases hcase hnp with ⟨_, h2⟩ | ⟨r, he, _, _, h3, h4⟩
    · have h5 := open_step (C := C) (s := s.inst) (s' := s'.inst) (i := (s.key, initNonce s.nonceFile rand)) (r := some (.ok ())) (by
        unfold EncProc.step at hstep
        split at hstep
        · cases hstep
        · rename_i i r' hst
          simp only [Option.some.injEq, Prod.mk.injEq] at hstep
          obtain ⟨h1, rfl⟩ := hstep
          rw [← h1]
          exact hst) hph
      rcases h5.2.1 with hp | ⟨_, hrf⟩
      · rw [hnp] at hp; cases hp
      · rw [h2 hrf] at hrm; cases hrm
    · injection he with he
      subst he
      exact ⟨h3, h4⟩
  refine ⟨hnon.1, ?_⟩
  rcases hg' with ⟨hp, _⟩ | ⟨_, hf⟩
  · rw [hnp] at hp; cases hp
  · rw [hf.file, hnon.2, hnon.1]
    rfl

namespace EncProc

/-- No removal is under way or ahead. -/
structure NoRm (s : Inst (Bytes × Bytes)) : Prop where
  removed : s.lp.cb.removed = false
  phase : s.phase = .idle ∨ s.phase = .closed ∨ s.phase = .send ∨ ∃ b dup, s.phase = .push (.write b dup)
  queue : .remove ∉ s.lp.queue
  buf : .remove ∉ s.lp.buf

theorem noRm_step {C : Cipher} {s s' : Inst (Bytes × Bytes)} {e : Ev (Bytes × Bytes)} {r : Option (Out Unit)} (h : NoRm s)
    (hs : Inst.step (encrypted C) s e = some (s', r)) (he : e ≠ .clear) : NoRm s' := by
  obtain ⟨h1, h2, h3, h4⟩ := h
  cases e with
  | clear => exact absurd rfl he
  | put k t bs =>
    simp only [Inst.step] at hs
    repeat' split at hs
    all_goals first
      | cases hs; done
      | (injection hs with hs; injection hs with g1 g2; subst g1; exact ⟨h1, h2, h3, h4⟩)
      | (injection hs with hs; injection hs with g1 g2; subst g1; exact ⟨h1, .inr (.inr (.inr ⟨_, _, rfl⟩)), h3, h4⟩)
  | delete k =>
    simp only [Inst.step] at hs
    repeat' split at hs
    all_goals first
      | cases hs; done
      | (injection hs with hs; injection hs with g1 g2; subst g1; exact ⟨h1, h2, h3, h4⟩)
      | (injection hs with hs; injection hs with g1 g2; subst g1; exact ⟨h1, .inr (.inr (.inr ⟨_, _, rfl⟩)), h3, h4⟩)
  | drop =>
    simp only [Inst.step] at hs
    split at hs
    · cases hs
    · injection hs with hs; injection hs with g1 g2; subst g1
      exact ⟨h1, .inr (.inl rfl), h3, h4⟩
  | api i =>
    simp only [Inst.step] at hs
    rcases h2 with hp | hp | hp | ⟨b, dup, hp⟩
    · simp [hp] at hs
    · simp [hp] at hs
    · simp only [hp] at hs
      injection hs with hs; injection hs with g1 g2; subst g1
      have hcb : (Looper.send s.lp).1.cb = s.lp.cb ∧ (Looper.send s.lp).1.queue = s.lp.queue ∧
          (Looper.send s.lp).1.buf = s.lp.buf := by
        unfold Looper.send; split <;> (try split) <;> exact ⟨rfl, rfl, rfl⟩
      exact ⟨by rw [hcb.1]; exact h1, .inl rfl, by rw [hcb.2.1]; exact h3, by rw [hcb.2.2]; exact h4⟩
    · simp only [hp] at hs
      injection hs with hs; injection hs with g1 g2; subst g1
      have hcb : (Looper.push s.lp (.write b dup)).cb = s.lp.cb ∧
          (Looper.push s.lp (.write b dup)).queue = s.lp.queue ++ [.write b dup] ∧
          (Looper.push s.lp (.write b dup)).buf = s.lp.buf := by
        unfold Looper.push; split <;> exact ⟨rfl, rfl, rfl⟩
      refine ⟨by rw [hcb.1]; exact h1, .inr (.inr (.inl rfl)), ?_, by rw [hcb.2.2]; exact h4⟩
      rw [hcb.2.1]
      simp [h3]
  | io o =>
    simp only [Inst.step] at hs
    split at hs
    · cases hs
    rename_i lp hlp
    injection hs with hs; injection hs with g1 g2; subst g1
    have hex : ∀ j (cb' : Cb), j ≠ Job.remove → (execJob (encrypted C s.idx) o j s.lp.cb = .done cb' ∨
        execJob (encrypted C s.idx) o j s.lp.cb = .panic cb') → cb'.removed = false := by
      intro j cb' hj h
      cases j with
      | remove => exact absurd rfl hj
      | write b dup =>
        simp only [execJob] at h
        split at h
        · rcases h with h | h
          · injection h with h; subst h; exact h1
          · cases h
        · rcases h with h | h
          · cases h
          · injection h with h; subst h; exact h1
    unfold Looper.ioStep at hlp
    repeat' split at hlp
    all_goals first
      | cases hlp; done
      | (injection hlp with hlp; subst hlp; exact ⟨h1, h2, h3, h4⟩)
      | (injection hlp with hlp; subst hlp; exact ⟨h1, h2, h4, h3⟩)
      | skip
    all_goals
      rename_i hbuf _ _ hx
      injection hlp with hlp; subst hlp
      rw [hbuf] at h4
      simp only [List.mem_cons, not_or] at h4
      first
        | exact ⟨hex _ _ (fun hj => h4.1 hj.symm) (.inl hx), h2, h3, h4.2⟩
        | exact ⟨hex _ _ (fun hj => h4.1 hj.symm) (.inr hx), h2, h3, h4.2⟩

/-- The store of a good process leaves what `encLeft` says. -/
theorem left_eq {s : EncProc} (h : Good s) (hp : s.inst.poisoned = false) : s.left = encLeft s.inst false := by
  rcases h with ⟨hq, _⟩ | ⟨_, hf⟩
  · rw [hp] at hq; cases hq
  · unfold left encLeft
    rw [hf.file]
    cases h : s.inst.lp.cb.removed <;> simp [nonce]

theorem kept_run {C : Cipher} (es : List (Ev Bytes)) {s s' : EncProc} {rs : List (Out Unit)} (h : Good s)
    (hp : s.inst.poisoned = false) (hn : NoRm s.inst) (hr : ∀ rand, Ev.api rand ∈ es → rand.length = nonceLen)
    (hno : Ev.clear ∉ es) (hs : run C s es = some (s', rs)) :
    Good s' ∧ s'.inst.poisoned = false ∧ NoRm s'.inst ∧ s'.nonce = s.nonce := by
  induction es generalizing s rs with
  | nil =>
    simp only [run, Option.some.injEq, Prod.mk.injEq] at hs
    obtain ⟨rfl, rfl⟩ := hs
    exact ⟨h, hp, hn, rfl⟩
  | cons e es ih =>
    unfold run at hs
    split at hs
    · cases hs
    · rename_i s1 r hstep
      split at hs
      · cases hs
      · rename_i s2 rs2 hrun
        simp only [Option.some.injEq, Prod.mk.injEq] at hs
        obtain ⟨rfl, rfl⟩ := hs
        obtain ⟨g1, g2, g3, g4⟩ := good_step h (fun rand he => hr rand (by simp [he])) hstep
        have hne : e ≠ .clear := fun he => hno (by simp [he])
        have hinst : ∃ r', Inst.step (encrypted C) s.inst (s.event e) = some (s1.inst, r') := by
          unfold step at hstep
          split at hstep
          · cases hstep
          · rename_i i r' hst
            simp only [Option.some.injEq, Prod.mk.injEq] at hstep
            obtain ⟨h1, rfl⟩ := hstep
            rw [← h1]
            exact ⟨_, hst⟩
        obtain ⟨r', hi⟩ := hinst
        have hphne : s.inst.phase ≠ .clrOpen := by
          rcases hn.phase with h | h | h | ⟨_, _, h⟩ <;> rw [h] <;> simp
        have hp1 : s1.inst.poisoned = false := by
          by_cases hio : ∃ o, s.event e = .io o
          · obtain ⟨o, ho⟩ := hio
            rw [ho] at hi
            rw [(ioStep_removed hi).2.2.2]; exact hp
          · rw [(other_step hi (fun o ho => hio ⟨o, ho⟩) (fun _ _ => hphne)).2.2.1]; exact hp
        have hn1 : NoRm s1.inst := noRm_step hn hi (by cases e <;> simp [event] at hne ⊢)
        obtain ⟨k1, k2, k3, k4⟩ := ih g1 hp1 hn1 (fun rand he => hr rand (List.mem_cons_of_mem _ he))
          (fun he => hno (List.mem_cons_of_mem _ he)) hrun
        refine ⟨k1, k2, k3, k4.trans ?_⟩
        rcases g4 hp1 with ⟨h5, _⟩ | ⟨_, _, h5, _⟩
        · exact h5
        · exact absurd h5 hphne

end EncProc

/-- **C69**, the other direction: a session without `clear_data` keeps the nonce and the nonce file, whatever fails in it and
wherever it is cut off, and so the next session uses the same nonce (and can decrypt). -/
theorem C69_partial_kept (C : Cipher) {page page' : Nat} {key key' : String} {rand0 rand' : Bytes} {d : EncDir} {s0 s s1 : EncProc}
    {es : List (Ev Bytes)} {rs : List (Out Unit)} (hopen : openDir C page key rand0 d = some s0)
    (hrun : EncProc.run C s0 es = some (s, rs)) (hno : Ev.clear ∉ es)
    (hr0 : rand0.length = nonceLen) (hr : ∀ r, Ev.api r ∈ es → r.length = nonceLen)
    (hnext : openDir C page' key' rand' s.left = some s1) (hr1 : rand'.length = nonceLen) :
    s.nonce = s0.nonce ∧ s.nonceFile = some s0.nonce ∧ s1.nonce = s0.nonce := by
  obtain ⟨hg0, _, hrm0, _, hp0, hph0⟩ := good_open hopen hr0
  have hn0 : NoRm s0.inst := by
    have ho := openDir_inst hopen
    unfold openEnc at ho
    split at ho
    · cases ho
    · unfold openAt at ho
      split at ho
      · cases ho
      · injection ho with ho
        exact ⟨hrm0, .inl hph0, by rw [← ho]; simp [Looper.new], by rw [← ho]; simp [Looper.new]⟩
  obtain ⟨hg, hp, hn, hnon⟩ := kept_run es hg0 hp0 hn0 hr hno hrun
  have hfile : s.nonceFile = some s0.nonce := by
    rcases hg with ⟨hq, _⟩ | ⟨_, hf⟩
    · rw [hp] at hq; cases hq
    · rw [hf.file, hn.removed, hnon]; rfl
  refine ⟨hnon, hfile, ?_⟩
  have hlen : s0.nonce.length = nonceLen := by
    rcases hg0 with ⟨hq, _⟩ | ⟨_, hf⟩
    · rw [hp0] at hq; cases hq
    · exact hf.len
  rw [(good_open hnext hr1).2.1]
  simp [left, hfile, initNonce, hlen]

theorem unpoisoned_run {C : Cipher} (es : List (Ev Bytes)) {s s' : EncProc} {rs : List (Out Unit)} (hp : s.inst.poisoned = false)
    (hs : EncProc.run C s es = some (s', rs)) (hok : ∀ r ∈ rs, r ≠ .panic) : s'.inst.poisoned = false := by
  induction es generalizing s rs with
  | nil =>
    simp only [EncProc.run, Option.some.injEq, Prod.mk.injEq] at hs
    obtain ⟨rfl, rfl⟩ := hs
    exact hp
  | cons e es ih =>
    unfold EncProc.run at hs
    split at hs
    · cases hs
    · rename_i s1 r hstep
      split at hs
      · cases hs
      · rename_i s2 rs2 hrun
        simp only [Option.some.injEq, Prod.mk.injEq] at hs
        obtain ⟨rfl, rfl⟩ := hs
        refine ih ?_ hrun (fun r hr => hok r (List.mem_append_right _ hr))
        have hi : Inst.step (encrypted C) s.inst (s.event e) = some (s1.inst, r) := by
          unfold EncProc.step at hstep
          split at hstep
          · cases hstep
          · rename_i i r' hst
            simp only [Option.some.injEq, Prod.mk.injEq] at hstep
            obtain ⟨h1, rfl⟩ := hstep
            rw [← h1]
            exact hst
        by_cases hio : ∃ o, s.event e = .io o
        · obtain ⟨o, ho⟩ := hio
          rw [ho] at hi
          rw [(ioStep_removed hi).2.2.2]; exact hp
        · by_cases hop : ∃ j, s.event e = .api j ∧ s.inst.phase = .clrOpen
          · obtain ⟨j, hj, hph⟩ := hop
            rw [hj] at hi
            cases hq : s1.inst.poisoned with
            | false => rfl
            | true => exact absurd rfl (hok .panic (by simp [(open_step hi hph).2.2.2.2 hq]))
          · rw [(other_step hi (fun o ho => hio ⟨o, ho⟩) (fun j hj hph => hop ⟨j, hj, hph⟩)).2.2.1]; exact hp

/-- **C69**, across sessions: cut a session off anywhere (except inside the removal job).  Either the data file is still there
and the next session uses its nonce, or it is gone and the next session uses the nonce the generator yields then. -/
theorem C69_partial_next_session (C : Cipher) {page page' : Nat} {key key' : String} {rand0 rand' : Bytes} {d : EncDir}
    {s0 s s1 : EncProc} {es : List (Ev Bytes)} {rs : List (Out Unit)} (hopen : openDir C page key rand0 d = some s0)
    (hrun : EncProc.run C s0 es = some (s, rs)) (hok : ∀ r ∈ rs, r ≠ .panic)
    (hr0 : rand0.length = nonceLen) (hr : ∀ r, Ev.api r ∈ es → r.length = nonceLen)
    (hnext : openDir C page' key' rand' s.left = some s1) (hr1 : rand'.length = nonceLen) :
    (s.left = ⟨[], none⟩ ∧ s1.nonce = rand') ∨
    (s.left = ⟨s.inst.lp.cb.ws.file, some s.nonce⟩ ∧ s1.nonce = s.nonce) := by
  obtain ⟨hg0, _, _, _, hp0, _⟩ := good_open hopen hr0
  obtain ⟨hg, _, _⟩ := good_run es hg0 hr hrun
  have hp := unpoisoned_run es hp0 hrun hok
  have hf : Fit s := by
    rcases hg with ⟨hq, _⟩ | ⟨_, hf⟩
    · rw [hp] at hq; cases hq
    · exact hf
  rw [(good_open hnext hr1).2.1]
  unfold left
  rw [hf.file]
  cases hrm : s.inst.lp.cb.removed with
  | true => exact .inl ⟨by simp [Inst.disk, hrm], by simp [initNonce]⟩
  | false => exact .inr ⟨by simp [Inst.disk, hrm], by simp [initNonce, hf.len]⟩

/-- The directories the other theorems on encrypted stores talk about (`EncLife`) are the ones an end of the process here leaves,
also inside the removal job. -/
theorem C69_partial_encLeft (C : Cipher) {page : Nat} {key : String} {rand0 : Bytes} {d : EncDir} {s0 s : EncProc}
    {es : List (Ev Bytes)} {rs : List (Out Unit)} (hopen : openDir C page key rand0 d = some s0)
    (hrun : EncProc.run C s0 es = some (s, rs)) (hok : ∀ r ∈ rs, r ≠ .panic)
    (hr0 : rand0.length = nonceLen) (hr : ∀ r, Ev.api r ∈ es → r.length = nonceLen) :
    s.left = encLeft s.inst false ∧
    ∀ o s' r, EncProc.step C s (.io o) = some (s', r) → s'.nonceFile ≠ s.nonceFile → s.leftHalf = encLeft s'.inst true := by
  obtain ⟨hg0, _, _, _, hp0, _⟩ := good_open hopen hr0
  obtain ⟨hg, _, _⟩ := good_run es hg0 hr hrun
  have hp := unpoisoned_run es hp0 hrun hok
  refine ⟨left_eq hg hp, ?_⟩
  intro o s' r hstep hne
  have hf : Fit s := by
    rcases hg with ⟨hq, _⟩ | ⟨_, hf⟩
    · rw [hp] at hq; cases hq
    · exact hf
  unfold EncProc.step at hstep
  split at hstep
  · cases hstep
  rename_i i r' hst
  simp only [Option.some.injEq, Prod.mk.injEq] at hstep
  obtain ⟨hs', rfl⟩ := hstep
  subst hs'
  simp only at hne
  split at hne
  · rename_i hh
    have hidx := (ioStep_removed hst).1
    simp [leftHalf, encLeft, Inst.disk, hh.2, hidx, hf.file, hh.1, nonce]
  · exact absurd rfl hne

theorem EncProc.run_putSteps {C : Cipher} {s : EncProc} (h : Resting s.inst) (i : Bytes) (o : Order) (k : String) (t : BitVec 32)
    (bs : Bytes) (htok : tokenOk t = true) {ws : WState}
    (hw : s.inst.lp.cb.ws.write (encrypted C s.inst.idx) o (Buffer.ofRaw k t bs) (s.inst.kv.get k).isSome = .done ws) :
    ∃ s', EncProc.run C s (putSteps i o k t bs) = some (s', [.ok ()]) ∧ Resting s'.inst ∧ s'.inst.lp.cb.ws = ws ∧
      s'.inst.idx = s.inst.idx ∧ s'.nonceFile = s.nonceFile ∧ s'.key = s.key := by
  obtain ⟨s, key, nf⟩ := s
  simp only at h hw ⊢
  obtain ⟨h1, h2, h3, h4, h5, h6, h7, h8, h9⟩ := h
  obtain ⟨idx, kv, valid, poisoned, phase, joined, lp⟩ := s
  obtain ⟨queue, chan, sender, owed, buf, io, cb, pushed, late, ran⟩ := lp
  simp only at h1 h2 h3 h4 h5 h6 h7 h8 h9 hw
  subst h1 h2 h3 h4 h5 h6 h7 h8
  refine ⟨⟨⟨idx, kv.insert k (Buffer.ofRaw k t bs), true, false, .idle, joined,
    ⟨[], [], true, owed + 1 - 1, [], .recv, { cb with ws := ws }, pushed ++ [.write (Buffer.ofRaw k t bs) (kv.get k).isSome], late,
      ran ++ [(o, .write (Buffer.ofRaw k t bs) (kv.get k).isSome)]⟩⟩, key, nf⟩, ?_, ⟨⟨rfl, rfl, rfl, rfl, rfl, rfl, rfl, rfl, h9⟩, rfl, rfl, rfl, rfl⟩⟩
  simp only [putSteps, EncProc.run, EncProc.step, EncProc.event, Inst.step, htok, Looper.push, Looper.send, Looper.ioStep, execJob, hw, ne_eq, not_true_eq_false, reduceCtorEq,
    Bool.true_eq_false, Bool.false_eq_true, or_self, if_true, if_false, Option.toList, List.append_nil, List.nil_append, h9, and_false]

/-- The steps of a `clear_data` until the background thread is about to run the removal job. -/
def clearUntilRemoval (rand : Bytes) : List (Ev Bytes) := [.clear, .api rand, .api rand, .io id, .io id]

theorem EncProc.run_clearUntilRemoval {C : Cipher} {s : EncProc} (h : Resting s.inst) (rand : Bytes) :
    ∃ s' s'' r, EncProc.run C s (clearUntilRemoval rand) = some (s', []) ∧ s'.nonceFile = s.nonceFile ∧
      EncProc.step C s' (.io id) = some (s'', r) ∧ s''.left = ⟨[], none⟩ := by
  obtain ⟨s, key, nf⟩ := s
  simp only at h ⊢
  obtain ⟨h1, h2, h3, h4, h5, h6, h7, h8, h9⟩ := h
  obtain ⟨idx, kv, valid, poisoned, phase, joined, lp⟩ := s
  obtain ⟨queue, chan, sender, owed, buf, io, cb, pushed, late, ran⟩ := lp
  simp only at h1 h2 h3 h4 h5 h6 h7 h8 h9
  subst h1 h2 h3 h4 h5 h6 h7 h8
  refine ⟨⟨⟨idx, [], false, false, .clrQuit, joined,
    ⟨[], [], true, owed + 1 - 1, [.remove], .run, cb, pushed ++ [.remove], late, ran⟩⟩, key, nf⟩,
    ⟨⟨idx, [], false, false, .clrQuit, joined,
    ⟨[], [], true, owed + 1 - 1, [], .run, { cb with removed := true }, pushed ++ [.remove], late, ran ++ [(id, .remove)]⟩⟩, key, none⟩,
    none, ?_, rfl, ?_, rfl⟩
  · simp only [clearUntilRemoval, EncProc.run, EncProc.step, EncProc.event, Inst.step, Looper.push, Looper.send, Looper.ioStep, ne_eq, not_true_eq_false, reduceCtorEq,
      Bool.true_eq_false, Bool.false_eq_true, or_self, if_true, if_false, Option.toList, List.append_nil, List.nil_append, h9, and_false]
  · simp only [EncProc.step, EncProc.event, Inst.step, Looper.ioStep, execJob, h9, and_self, if_true]

/-- An empty encrypted directory, opened: what a put of a record of at most one page does. -/
theorem encPut_fresh (C : Cipher) {key : String} {k rand : Bytes} (hk : decodeKey key = some k) {d : EncDir} (hd : d.file = [])
    {nonce : Bytes} (hn : initNonce d.nonceFile rand = nonce) (i : Bytes) {ky : String} {t : BitVec 32} {bs : Bytes} (htok : tokenOk t = true)
    (hlen : aeadLen (Buffer.ofRaw ky t bs) ≤ 56) :
    ∃ s0 s1, openDir C 64 key rand d = some s0 ∧ s0.nonce = nonce ∧
      EncProc.run C s0 (putSteps i id ky t bs) = some (s1, [.ok ()]) ∧ Resting s1.inst ∧ s1.nonceFile = some nonce ∧ s1.nonce = nonce ∧
      ∃ p, StoredUnder ⟨C, k, nonce⟩ s1.inst.disk 0 p ∧ kvFromBytes p = some (Buffer.ofRaw ky t bs) := by
  let S : Stream := ⟨C, k, nonce⟩
  have hopen := openStore_nil (aeadCodec S) 64 (by decide) none
  obtain ⟨s0, ho⟩ : ∃ s0, openAt (encrypted C) (k, nonce) 64 [] = some s0 := by
    unfold openAt
    rw [show openStore (encrypted C (k, nonce)) 64 [] 8 none = _ from hopen]
    exact ⟨_, rfl⟩
  have hr0 := resting_open ho
  have hs0 : s0.idx = (k, nonce) ∧ s0.kv = [] ∧ Valid (aeadCodec S) s0.lp.cb.ws [] [] ∧ s0.lp.cb.ws.quota = none ∧
      s0.lp.cb.ws.file.length = 64 ∧ s0.lp.cb.ws.needTrim = false ∧ s0.lp.cb.ws.page = 64 := by
    unfold openAt at ho
    rw [show openStore (encrypted C (k, nonce)) 64 [] 8 none = _ from hopen] at ho
    injection ho with ho
    subst ho
    exact ⟨rfl, rfl, ⟨rfl, by simp [Looper.new, zeros], ⟨by simp, _, zeros_eq 64 (by decide)⟩, .nil _, rfl⟩, rfl, by simp [Looper.new, zeros], rfl, rfl⟩
  obtain ⟨hi0, hkv0, hv0, hq0, hl0, hn0, hp0⟩ := hs0
  have horder : ∀ l : List Buffer, (id l).Perm l := fun l => List.Perm.refl l
  have hok : aeadOk (Buffer.ofRaw ky t bs) := by
    have := hlen; simp only [aeadLen] at this; simp only [aeadOk]; omega
  obtain ⟨w1, c1, i1, hw1, hv1, hc1, hsh1, _⟩ := write_core (aead_lawful S) id horder (Buffer.ofRaw ky t bs) false hv0 hq0
    (by intro b' hb'; simp at hb'; subst hb'; exact hok) (.inl (by intro b' hb'; simp at hb'; subst hb'; omega))
    (by simp; omega) (by intro _; simp [recSum, sumLen]; omega) (by simp [aeadPos, counterMax])
  have hs1 : i1 = [some (Buffer.ofRaw ky t bs)] := by
    cases hsh1 with
    | append hfit hi hc hl => simpa using hi
    | expand hfull => simp at hfull; omega
    | trim hfull => simp at hfull; omega
  subst hs1
  have hod : openDir C 64 key rand d = some ⟨s0, k, some nonce⟩ := by
    unfold openDir
    have h1 : openEnc C 64 key rand d = some s0 := by rw [openEnc_eq hk, hd, hn]; exact ho
    simp only [hk, h1, hn]
  obtain ⟨s1, hrun1, hr1, hws1, hidx1, hnf1, _⟩ := EncProc.run_putSteps (C := C) (s := ⟨s0, k, some nonce⟩) hr0 i id ky t bs
    htok (ws := w1) (by
      rw [hi0, hkv0]
      exact hw1)
  have hd1 : s1.inst.disk = w1.file := by simp [disk, hr1.removed, hws1]
  obtain ⟨p, hp, hkp⟩ := storedUnder_of_item hv1.holds hv1.framed (n := 0) (b := Buffer.ofRaw ky t bs) rfl
  refine ⟨_, s1, hod, by simp [EncProc.nonce, hi0], hrun1, hr1, hnf1, by simp [EncProc.nonce, hidx1, hi0], p, by rw [hd1]; exact hp, hkp⟩

/-- **C69 is false of this program**, for every cipher and key: put a value in a fresh directory; `clear_data`; the process is
killed in it between the removal of the data file and that of the nonce file (every call has returned `Ok` until then).  The next
session, whatever the generator would yield, uses the old nonce: a value put there is encrypted under the key, nonce and counter
the cleared value was. -/
theorem C69_refuted (C : Cipher) {key : String} {k nonce rand : Bytes} (hk : decodeKey key = some k) (hn : nonce.length = nonceLen) :
    ∃ s0 s1 s2 t0 t1 es1 es2 es3, openDir C 64 key nonce EncDir.fresh = some s0 ∧
      EncProc.run C s0 es1 = some (s1, [.ok ()]) ∧ EncProc.run C s1 (.clear :: es2) = some (s2, []) ∧
      (∃ s3 r, EncProc.step C s2 (.io id) = some (s3, r) ∧ s3.left = ⟨[], none⟩) ∧
      openDir C 64 key rand s2.leftHalf = some t0 ∧ t0.nonce = nonce ∧
      EncProc.run C t0 es3 = some (t1, [.ok ()]) ∧ Reuse ⟨C, k, nonce⟩ s1.inst.disk t1.inst.disk := by
  obtain ⟨s0, s1, ho, _, hrun1, hr1, hnf1, hnn, p1, hp1, hk1⟩ := encPut_fresh C (rand := nonce) hk (d := EncDir.fresh) rfl (nonce := nonce)
    (by simp [initNonce, EncDir.fresh]) rand (ky := "a") (t := 1) (bs := [1, 97]) (by decide) (by decide +kernel)
  obtain ⟨s2, s3, r, hrun2, hnf2, hst3, hleft3⟩ := EncProc.run_clearUntilRemoval (C := C) hr1 rand
  obtain ⟨t0, t1, ho2, hn2, hrun3, _, _, _, p2, hp2, hk2⟩ := encPut_fresh C (rand := rand) hk (d := s2.leftHalf) rfl (nonce := nonce)
    (by simp [leftHalf, hnf2, hnf1, initNonce, hn]) rand (ky := "a") (t := 1) (bs := [1, 98]) (by decide) (by decide +kernel)
  refine ⟨s0, s1, s2, t0, t1, _, _, _, ho, hrun1, hrun2, ⟨s3, r, hst3, hleft3⟩, ho2, hn2, hrun3, 0, p1, p2, hp1, hp2, ?_⟩
  rintro rfl
  rw [hk1] at hk2
  revert hk2
  decide +kernel

/-- A put and the work it causes. -/
def nonceDemo1 : List (Ev Bytes) := putSteps nonce1 id "a" 1 [1, 97]

/-- The same, then `clear_data` until the removal. -/
def nonceDemo2 : List (Ev Bytes) := nonceDemo1 ++ clearUntilRemoval nonce1

/-- A session: put, `clear_data` up to its last step, with the thread running in between. -/
def nonceDemo : List (Ev Bytes) :=
  putSteps nonce1 id "a" 1 [1, 97] ++ clearUntilRemoval nonce1 ++ [.io id, .io id, .api nonce1, .io id, .api nonce1]

/-- The hypotheses of `C69_partial_clear_renews` are met: the put ran under `nonce1`, the next nonce is another one. -/
example : ∃ s0 s s', openDir toy 80 testKey nonce1 EncDir.fresh = some s0 ∧ EncProc.run toy s0 nonceDemo = some (s, [.ok ()]) ∧
    s.inst.phase.clearing = true ∧ EncProc.step toy s (.api nonce1.reverse) = some (s', some (.ok ())) ∧ s.nonce = nonce1 ∧
    s'.nonce = nonce1.reverse ∧ nonce1 ≠ nonce1.reverse := by
  have hc : ((openDir toy 80 testKey nonce1 EncDir.fresh).bind fun s0 => (EncProc.run toy s0 nonceDemo).bind fun p =>
      (EncProc.step toy p.1 (.api nonce1.reverse)).map fun q =>
        (decide (p.2 = [.ok ()]) && p.1.inst.phase.clearing && decide (q.2 = some (.ok ())) && decide (p.1.nonce = nonce1) &&
          decide (q.1.nonce = nonce1.reverse))) = some true := by decide +kernel
  cases h0 : openDir toy 80 testKey nonce1 EncDir.fresh with
  | none => simp [h0] at hc
  | some s0 =>
    cases h1 : EncProc.run toy s0 nonceDemo with
    | none => simp [h0, h1] at hc
    | some p =>
      cases h2 : EncProc.step toy p.1 (.api nonce1.reverse) with
      | none => simp [h0, h1, h2] at hc
      | some q =>
        simp [h0, h1, h2] at hc
        obtain ⟨⟨⟨⟨e1, e2⟩, e3⟩, e4⟩, e5⟩ := hc
        refine ⟨s0, p.1, q.1, rfl, ?_, e2, ?_, e4, e5, by decide⟩
        · rw [← e1]; exact h1
        · rw [← e3]; exact h2

/-- The hypotheses of `C69_partial_kept`, `C69_partial_next_session` and `C69_partial_encLeft` are met: a session with a put and no
`clear_data`, and the next one; another that is cut off right after the removal. -/
example : (∃ s0 s s1, openDir toy 80 testKey nonce1 EncDir.fresh = some s0 ∧
      EncProc.run toy s0 nonceDemo1 = some (s, [.ok ()]) ∧
      openDir toy 80 testKey nonce1.reverse s.left = some s1 ∧ s1.nonce = nonce1 ∧ s1.inst.kv.length = 1) ∧
    (∃ s0 s s' r s1, openDir toy 80 testKey nonce1 EncDir.fresh = some s0 ∧
      EncProc.run toy s0 nonceDemo2 = some (s, [.ok ()]) ∧
      EncProc.step toy s (.io id) = some (s', r) ∧ s'.nonceFile ≠ s.nonceFile ∧
      openDir toy 80 testKey nonce1.reverse s'.left = some s1 ∧ s1.nonce = nonce1.reverse) := by
  constructor
  · have hc : ((openDir toy 80 testKey nonce1 EncDir.fresh).bind fun s0 =>
        (EncProc.run toy s0 nonceDemo1).bind fun p =>
        (openDir toy 80 testKey nonce1.reverse p.1.left).map fun q =>
          (decide (p.2 = [.ok ()]) && decide (q.nonce = nonce1) && decide (q.inst.kv.length = 1))) = some true := by decide +kernel
    cases h0 : openDir toy 80 testKey nonce1 EncDir.fresh with
    | none => simp [h0] at hc
    | some s0 =>
      cases h1 : EncProc.run toy s0 nonceDemo1 with
      | none => simp [h0, h1] at hc
      | some p =>
        cases h2 : openDir toy 80 testKey nonce1.reverse p.1.left with
        | none => simp [h0, h1, h2] at hc
        | some q =>
          simp [h0, h1, h2] at hc
          obtain ⟨⟨e1, e2⟩, e3⟩ := hc
          exact ⟨s0, p.1, q, rfl, by rw [← e1]; exact h1, h2, e2, e3⟩
  · have hc : ((openDir toy 80 testKey nonce1 EncDir.fresh).bind fun s0 =>
        (EncProc.run toy s0 nonceDemo2).bind fun p =>
        (EncProc.step toy p.1 (.io id)).bind fun x =>
        (openDir toy 80 testKey nonce1.reverse x.1.left).map fun q =>
          (decide (p.2 = [.ok ()]) && decide (x.1.nonceFile ≠ p.1.nonceFile) && decide (q.nonce = nonce1.reverse))) = some true := by
      decide +kernel
    cases h0 : openDir toy 80 testKey nonce1 EncDir.fresh with
    | none => simp [h0] at hc
    | some s0 =>
      cases h1 : EncProc.run toy s0 nonceDemo2 with
      | none => simp [h0, h1] at hc
      | some p =>
        cases h3 : EncProc.step toy p.1 (.io id) with
        | none => simp [h0, h1, h3] at hc
        | some x =>
          cases h2 : openDir toy 80 testKey nonce1.reverse x.1.left with
          | none => simp [h0, h1, h2, h3] at hc
          | some q =>
            simp [h0, h1, h2, h3] at hc
            obtain ⟨⟨e1, e2⟩, e3⟩ := hc
            exact ⟨s0, p.1, x.1, x.2, q, rfl, by rw [← e1]; exact h1, h3, e2, h2, e3⟩

/-- The hypotheses of `C69_refuted` are met by a real key string. -/
example : decodeKey testKey = some testKeyBytes ∧ nonce1.length = nonceLen := ⟨decode_testKey, by decide⟩

end Mmkv
