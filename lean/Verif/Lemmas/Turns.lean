import Verif.Model.Turns
import Verif.Props.Common
/-! A writer whose mapping may be shorter than the (shared, plain) file: whatever it completes, it does right. -/

namespace Mmkv
open Spec
variable {ι : Type}

/-- The state of a writer on a shared plain file that holds whole records; its mapping may be shorter than the file and
its record counter anything. -/
structure SValid (s : WState) (content : Bytes) (items : List (Option Buffer)) : Prop where
  usz : s.usizeBytes = 8
  mm8 : 8 ≤ s.mmLen
  mm : s.mmLen ≤ s.file.length
  holds : Holds s.file content
  framed : Framed crcCodec 0 content items

variable {s s' : WState} {content : Bytes} {items : List (Option Buffer)}

theorem SValid.writeOffset (h : SValid s content items) : s.writeOffset = some (content.length + 8) := by
  have hh := h.holds.header
  have hb := h.holds.1
  have := h.usz
  have := h.mm8
  unfold WState.writeOffset WState.lenOffset
  rw [if_neg (by omega), if_neg (by omega)]
  simp only [hh]
  rw [if_pos hb]

theorem SValid.readItems (h : SValid s content items) {items' : List (Option Buffer)}
    (hr : s.readItems crcCodec = some items') : items' = items := by
  unfold WState.readItems at hr
  rw [h.writeOffset] at hr
  simp only [show WState.lenOffset = 8 from rfl] at hr
  split at hr
  · have : content = [] := List.length_eq_zero_iff.1 (by omega)
    have hf := h.framed
    rw [this] at hf
    have := hf.iter 0 (by simp)
    simp [iterLoop] at this hr
    rw [hr, this]
  · split at hr
    · cases hr
    · rw [h.holds.body, h.framed.iter _ (Nat.le_refl _)] at hr
      injection hr with hr
      exact hr.symm

/-- What a completed `append` did. -/
theorem SValid.append (h : SValid s content items) {b : Buffer} {r : Bytes} (hok : crcOk b) {n : Nat}
    (he : crcCodec.enc b n = some r) (hd : s.append r = .done s') (hb : s.file.length < 2 ^ 64) :
    SValid s' (content ++ r) (items ++ [some b]) ∧ s'.file.length = s.file.length ∧ s'.mmLen = s.mmLen ∧
      s'.page = s.page ∧ s'.needTrim = s.needTrim := by
  have hmm := h.mm
  have hmm8 := h.mm8
  unfold WState.append at hd
  rw [h.writeOffset] at hd
  simp only [WState.lenOffset, Nat.add_sub_cancel] at hd
  unfold WState.storeLen WState.lenOffset at hd
  rw [if_neg (by have := h.usz; omega)] at hd
  unfold WState.store at hd
  rw [if_pos (by simp; omega)] at hd
  simp only [Run.andThen_done] at hd
  split at hd
  · rename_i hfit
    injection hd with hd
    subst hd
    obtain ⟨h1, h2⟩ := holds_append h.holds r (by omega) (by omega)
    obtain ⟨r', hr', hrl, hfr⟩ := framed_enc crc_lawful b items.length hok trivial
    have : r' = r := by
      have e : crcCodec.enc b n = crcCodec.enc b items.length := rfl
      rw [e, hr'] at he
      injection he
    subst this
    refine ⟨⟨h.usz, h.mm8, ?_, h1, h.framed.append (by simpa using hfr)⟩, h2, rfl, rfl, rfl⟩
    simp only
    exact Nat.le_trans hmm (Nat.le_of_eq h2.symm)
  · cases hd

theorem SValid.expand (h : SValid s content items) (hd : s.expand = .done s') :
    SValid s' content items ∧ s.file.length ≤ s'.file.length ∧ s.mmLen ≤ s'.mmLen ∧ s'.page = s.page ∧
      s'.needTrim = s.needTrim := by
  have hmm := h.mm
  have hmm8 := h.mm8
  unfold WState.expand at hd
  simp only at hd
  split at hd
  · injection hd with hd
    subst hd
    refine ⟨⟨h.usz, ?_, ?_, holds_expand h.holds _, h.framed⟩, ?_, ?_, rfl, rfl⟩ <;> simp [zeros] <;> omega
  · cases hd

/-- Moving the counter or the flag does not matter. -/
theorem SValid.flag (h : SValid s content items) (p : Nat) (t : Bool) :
    SValid { s with position := p, needTrim := t } content items := ⟨h.usz, h.mm8, h.mm, h.holds, h.framed⟩

/-- A completed `append` keeps the lengths. -/
theorem append_len {a a' : WState} {r : Bytes} (hmm : a.mmLen ≤ a.file.length) (h : a.append r = .done a') :
    a'.file.length = a.file.length ∧ a'.mmLen = a.mmLen := by
  unfold WState.append at h
  split at h
  · cases h
  rename_i start _
  simp only [WState.storeLen, WState.store] at h
  split at h
  · cases h
  · split at h
    · rename_i hf
      simp only [Run.andThen_done] at h
      split at h
      · rename_i hf2
        injection h with h
        subst h
        have h1 : (splice a.file 0 (beBytes 8 (r.length + (start - WState.lenOffset)))).length = a.file.length :=
          splice_length _ _ _ (by simp at hf ⊢; omega)
        refine ⟨?_, rfl⟩
        simp only
        rw [splice_length _ _ _ (by rw [h1]; omega), h1]
      · cases h
    · cases h

/-- Lengths only grow. -/
theorem trimLoop_mono (c : Codec) (maxLen : Nat) : ∀ (bs : List Buffer) (s s' : WState),
    s.mmLen ≤ s.file.length → WState.trimLoop c maxLen bs s = .done s' →
    s.file.length ≤ s'.file.length ∧ s'.mmLen ≤ s'.file.length := by
  intro bs
  induction bs with
  | nil =>
    intro s s' _ h
    unfold WState.trimLoop at h
    injection h with h; subst h
    exact ⟨Nat.le_refl _, by assumption⟩
  | cons b bs ih =>
    intro s s' hmm h
    unfold WState.trimLoop at h
    split at h
    · cases h
    rename_i r _
    split at h
    · cases h
    rename_i off _
    have key : ∀ a : WState, s.file.length ≤ a.file.length → a.mmLen ≤ a.file.length →
        (((a.append r).andThen fun s => .done { s with position := s.position + 1 }).andThen
          fun s => WState.trimLoop c maxLen bs s) = .done s' → s.file.length ≤ s'.file.length ∧ s'.mmLen ≤ s'.file.length := by
      intro a h1 h2 h
      cases ha : a.append r with
      | panic => rw [ha] at h; cases h
      | done a' =>
        rw [ha] at h
        simp only [Run.andThen_done] at h
        obtain ⟨e1, e2⟩ := append_len h2 ha
        have := ih { a' with position := a'.position + 1 } s' (by simp only; omega) h
        simp only at this
        exact ⟨by omega, this.2⟩
    split at h
    · cases he : s.expand with
      | panic => rw [he] at h; cases h
      | done a =>
        rw [he] at h
        simp only [Run.andThen_done] at h
        unfold WState.expand at he
        simp only at he
        split at he
        · injection he with he
          subst he
          exact key _ (by simp) (by simp [zeros]) h
        · cases he
    · simp only [Run.andThen_done] at h
      exact key s (Nat.le_refl _) hmm h

theorem SValid.trimLoop (maxLen : Nat) : ∀ (bs : List Buffer) (s : WState) (content : Bytes) (items : List (Option Buffer)),
    SValid s content items → (∀ b ∈ bs, crcOk b) → ∀ s', WState.trimLoop crcCodec maxLen bs s = .done s' →
    s'.file.length < 2 ^ 64 →
    ∃ content', SValid s' content' (items ++ bs.map some) ∧ s.mmLen ≤ s'.mmLen := by
  intro bs
  induction bs with
  | nil =>
    intro s content items h _ s' hd _
    unfold WState.trimLoop at hd
    injection hd with hd; subst hd
    exact ⟨content, by simpa using h, Nat.le_refl _⟩
  | cons b bs ih =>
    intro s content items h hok s' hd hb
    have hmono := (trimLoop_mono _ _ _ _ _ h.mm hd).1
    unfold WState.trimLoop at hd
    split at hd
    · cases hd
    rename_i r henc
    split at hd
    · cases hd
    have key : ∀ a : WState, SValid a content items → s.mmLen ≤ a.mmLen →
        (((a.append r).andThen fun s => .done { s with position := s.position + 1 }).andThen
          fun s => WState.trimLoop crcCodec maxLen bs s) = .done s' →
        ∃ content', SValid s' content' (items ++ (b :: bs).map some) ∧ s.mmLen ≤ s'.mmLen := by
      intro a ha hma hd
      cases hap : a.append r with
      | panic => rw [hap] at hd; cases hd
      | done a' =>
        rw [hap] at hd
        simp only [Run.andThen_done] at hd
        have hlen : a.file.length < 2 ^ 64 := by
          obtain ⟨e1, e2⟩ := append_len ha.mm hap
          have := ha.mm
          have := trimLoop_mono crcCodec maxLen bs { a' with position := a'.position + 1 } s' (by simp only; omega) hd
          simp only at this
          omega
        obtain ⟨v, l1, l2, _, _⟩ := ha.append (hok b List.mem_cons_self) henc hap hlen
        obtain ⟨content', v', hm'⟩ := ih { a' with position := a'.position + 1 } (content ++ r) (items ++ [some b])
          ⟨v.usz, v.mm8, v.mm, v.holds, v.framed⟩ (fun b' hb' => hok b' (List.mem_cons_of_mem _ hb')) s' hd hb
        exact ⟨content', by simpa using v', by simp only at hm'; omega⟩
    split at hd
    · cases he : s.expand with
      | panic => rw [he] at hd; cases hd
      | done a =>
        rw [he] at hd
        simp only [Run.andThen_done] at hd
        obtain ⟨va, _, hm, _⟩ := h.expand he
        exact key a va hm hd
    · simp only [Run.andThen_done] at hd
      exact key s h (Nat.le_refl _) hd

/-- **A write that completes on a shared file does what its mutation says**, however stale the writer. -/
theorem SValid.write (order : List Buffer → List Buffer) (ho : ∀ l, (order l).Perm l) (b : Buffer) (dup : Bool)
    (h : SValid s content items) (hok : ∀ b', some b' ∈ items ++ [some b] → crcOk b')
    (hd : WState.write crcCodec order b dup s = .done s') (hb : s'.file.length < 2 ^ 64) :
    ∃ content' items', SValid s' content' items' ∧ (∀ b', some b' ∈ items' → crcOk b') ∧
      s.file.length ≤ s'.file.length ∧
      Store.empty.run (mutations items') = (Store.empty.run (mutations items)).apply b.mutation := by
  have hrun : Store.empty.run (mutations (items ++ [some b])) =
      (Store.empty.run (mutations items)).apply b.mutation := by
    simp [mutations, Store.run]
  have hokb := hok b (by simp)
  unfold WState.write at hd
  split at hd
  · cases hd
  rename_i r henc
  rw [h.writeOffset] at hd
  simp only at hd
  generalize hs0 : (if dup = true then { s with needTrim := true } else s) = s0 at hd
  have hfile0 : s0.file = s.file := by rw [← hs0]; split <;> rfl
  have hmm0 : s0.mmLen = s.mmLen := by rw [← hs0]; split <;> rfl
  have hv0 : SValid s0 content items := by
    rw [← hs0]; split
    · exact ⟨h.usz, h.mm8, h.mm, h.holds, h.framed⟩
    · exact h
  -- appending after a possible expansion
  have key : ∀ a : WState, SValid a content items → s.file.length ≤ a.file.length →
      ((a.append r).andThen fun s => .done { s with position := s.position + 1 }) = .done s' →
      ∃ content' items', SValid s' content' items' ∧ (∀ b', some b' ∈ items' → crcOk b') ∧
        s.file.length ≤ s'.file.length ∧
        Store.empty.run (mutations items') = (Store.empty.run (mutations items)).apply b.mutation := by
    intro a ha hle hd
    cases hap : a.append r with
    | panic => rw [hap] at hd; cases hd
    | done a' =>
      rw [hap] at hd
      simp only [Run.andThen_done] at hd
      injection hd with hd
      subst hd
      obtain ⟨e1, _⟩ := append_len ha.mm hap
      simp only at hb
      obtain ⟨v, l1, _, _, _⟩ := ha.append hokb henc hap (by omega)
      exact ⟨_, _, ⟨v.usz, v.mm8, v.mm, v.holds, v.framed⟩, hok, by simp only; omega, hrun⟩
  split at hd
  · exact key s0 hv0 (by rw [hfile0]; exact Nat.le_refl _) hd
  · split at hd
    · -- compaction
      cases hri : s0.readItems crcCodec with
      | none => rw [hri] at hd; cases hd
      | some items' =>
        have := hv0.readItems hri
        subst this
        rw [hri] at hd
        simp only at hd
        have hmemS := fun b' => @mem_snapshot items' b b'
        have hmwf : MapWF (mapStep (intoMap items').1 (some b)) := (MapWF.intoMap items').mapStep _
        have hview : view (mapStep (intoMap items').1 (some b)) = (Store.empty.run (mutations items')).apply b.mutation := by
          rw [view_mapStep_some, view_intoMap]
        generalize hm : mapStep (intoMap items').1 (some b) = m at *
        have hmem : ∀ b' ∈ order m.values, some b' ∈ items' ++ [some b] :=
          fun b' hb' => hmemS b' ((ho _).mem_iff.1 hb')
        obtain ⟨hr1, hr2⟩ := holds_reset hv0.holds
        have hmm := hv0.mm
        have hmm8 := hv0.mm8
        have hreset : s0.reset = .done { s0 with
            file := splice s0.file 0 (beBytes 8 0), log := s0.log ++ [.store 0 (beBytes 8 0)] } := by
          unfold WState.reset WState.storeLen WState.lenOffset
          rw [if_neg (by have := hv0.usz; omega)]
          unfold WState.store
          rw [if_pos (by simp; omega)]
        rw [hreset] at hd
        simp only [Run.andThen_done] at hd
        cases htl : WState.trimLoop crcCodec s.mmLen (order m.values) { s0 with
            file := splice s0.file 0 (beBytes 8 0), position := 0, log := s0.log ++ [.store 0 (beBytes 8 0)] } with
        | panic => rw [htl] at hd; cases hd
        | done s2 =>
          rw [htl] at hd
          simp only [Run.andThen_done] at hd
          injection hd with hd
          subst hd
          simp only at hb
          have hv1 : SValid { s0 with
              file := splice s0.file 0 (beBytes 8 0), position := 0, log := s0.log ++ [.store 0 (beBytes 8 0)] } [] [] :=
            ⟨hv0.usz, hv0.mm8, by simp only [hr2]; exact hmm, hr1, .nil _⟩
          have hmono := (trimLoop_mono _ _ _ _ _ hv1.mm htl).1
          obtain ⟨content2, v2, _⟩ := SValid.trimLoop s.mmLen (order m.values) _ [] [] hv1
            (fun b' hb' => hok b' (hmem b' hb')) s2 htl hb
          refine ⟨content2, (order m.values).map some, ⟨v2.usz, v2.mm8, v2.mm, v2.holds, by simpa using v2.framed⟩, ?_, ?_, ?_⟩
          · intro b' hb'
            obtain ⟨b'', hb'', e⟩ := List.mem_map.1 hb'
            injection e with e
            subst e
            exact hok _ (hmem _ hb'')
          · rw [hfile0] at hr2
            simp only [hfile0, hr2] at hmono
            exact hmono
          · rw [run_values m hmwf _ (ho _), hview]
    · cases he : s0.expand with
      | panic => rw [he] at hd; cases hd
      | done a =>
        rw [he] at hd
        simp only [Run.andThen_done] at hd
        obtain ⟨va, hl, _⟩ := hv0.expand he
        exact key a va (by rw [← hfile0]; exact hl) hd

/-- A completed write never shortens the file, and its mapping stays within it. -/
theorem write_mono {c : Codec} {order : List Buffer → List Buffer} {b : Buffer} {dup : Bool} (hmm : s.mmLen ≤ s.file.length)
    (hd : WState.write c order b dup s = .done s') : s.file.length ≤ s'.file.length ∧ s'.mmLen ≤ s'.file.length := by
  unfold WState.write at hd
  split at hd
  · cases hd
  rename_i r henc
  split at hd
  · cases hd
  simp only at hd
  generalize hs0 : (if dup = true then { s with needTrim := true } else s) = s0 at hd
  have hfile0 : s0.file = s.file := by rw [← hs0]; split <;> rfl
  have hmm0 : s0.mmLen = s.mmLen := by rw [← hs0]; split <;> rfl
  have hexp : ∀ a a' : WState, a.mmLen ≤ a.file.length → a.expand = .done a' →
      a.file.length ≤ a'.file.length ∧ a'.mmLen ≤ a'.file.length := by
    intro a a' h1 h2
    unfold WState.expand at h2
    simp only at h2
    split at h2
    · injection h2 with h2; subst h2; simp [zeros]
    · cases h2
  have key : ∀ a : WState, a.mmLen ≤ a.file.length → s.file.length ≤ a.file.length →
      ((a.append r).andThen fun s => .done { s with position := s.position + 1 }) = .done s' →
      s.file.length ≤ s'.file.length ∧ s'.mmLen ≤ s'.file.length := by
    intro a ha hle hd
    cases hap : a.append r with
    | panic => rw [hap] at hd; cases hd
    | done a' =>
      rw [hap] at hd
      simp only [Run.andThen_done] at hd
      injection hd with hd
      subst hd
      obtain ⟨e1, e2⟩ := append_len ha hap
      simp only
      omega
  rw [← hfile0, ← hmm0] at hmm
  split at hd
  · exact key s0 hmm (by rw [hfile0]; exact Nat.le_refl _) hd
  · split at hd
    · split at hd
      · cases hd
      · rename_i items _
        cases hr : s0.reset with
        | panic => rw [hr] at hd; cases hd
        | done s1 =>
          rw [hr] at hd
          simp only [Run.andThen_done] at hd
          have h1 : s1.file.length = s0.file.length ∧ s1.mmLen = s0.mmLen := by
            unfold WState.reset WState.storeLen at hr
            split at hr
            · cases hr
            · unfold WState.store at hr
              split at hr
              · rename_i hf
                injection hr with hr
                subst hr
                exact ⟨splice_length _ _ _ (by omega), rfl⟩
              · cases hr
          cases ht : WState.trimLoop c s.mmLen (order (mapStep (intoMap items).1 (some b)).values) { s1 with position := 0 } with
          | panic => rw [ht] at hd; cases hd
          | done s2 =>
            rw [ht] at hd
            simp only [Run.andThen_done] at hd
            injection hd with hd
            subst hd
            have := trimLoop_mono c s.mmLen _ { s1 with position := 0 } s2 (by simp only; omega) ht
            simp only at this ⊢
            rw [← hfile0]
            omega
    · cases he : s0.expand with
      | panic => rw [he] at hd; cases hd
      | done a =>
        rw [he] at hd
        simp only [Run.andThen_done] at hd
        obtain ⟨g1, g2⟩ := hexp s0 a hmm he
        exact key a g2 (by rw [← hfile0]; exact g1) hd

/-! ### One process -/

namespace Inst

/-- The jobs a process has not run yet. -/
def todo (s : Inst ι) : List Job := s.lp.buf ++ s.lp.queue ++ s.phase.inflight

theorem todo_resting {s : Inst ι} (h : s.Resting) : s.todo = [] := by
  obtain ⟨hp, hq, hb⟩ := h
  unfold todo
  rw [hq, hb]
  rcases hp with hp | hp <;> rw [hp] <;> rfl

/-- What a call of this process does: a `delete` of a key this process does not see does nothing. -/
def effect (s : Inst ι) : Ev ι → Option Mutation
  | .put k t bs => some (.put k ⟨t, bs⟩)
  | .delete k => if (s.kv.get k).isNone then none else some (.delete k)
  | _ => none

end Inst

/-- Bookkeeping of a process that never clears. -/
structure PInv (s : Inst Unit) : Prop where
  valid : s.valid = true
  poisoned : s.poisoned = false
  phase : s.phase = .idle ∨ (∃ j, s.phase = .push j) ∨ s.phase = .send ∨ s.phase = .closed
  bufEmpty : s.lp.io = .recv ∨ s.lp.io = .swap ∨ s.lp.io = .exited → s.lp.buf = []
  jobs : ∀ j ∈ s.todo, ∃ b dup, j = .write b dup ∧ crcOk b

/-- The background thread of a process has not panicked. -/
def Inst.Unpanicked (s : Inst ι) : Prop := s.lp.io ≠ .unwinding ∧ s.lp.io ≠ .dead

/-- The records of a call are below 4 GiB, and a `HashMap` yields each of its values once. -/
def Ev.Sized : Ev ι → Prop
  | .put k t bs => recordSize k t bs < 2 ^ 32
  | .delete k => recordSize k deletedToken [] < 2 ^ 32
  | .io o => ∀ l, (o l).Perm l
  | _ => True

/-- The part of the bookkeeping that survives anything but a `clear_data`. -/
structure NoClear {ι : Type} (s : Inst ι) : Prop where
  valid : s.valid = true
  poisoned : s.poisoned = false
  phase : s.phase = .idle ∨ (∃ j, s.phase = .push j) ∨ s.phase = .send ∨ s.phase = .closed
  jobs : Job.remove ∉ s.todo

theorem PInv.calm {s : Inst Unit} (h : PInv s) : NoClear s :=
  ⟨h.valid, h.poisoned, h.phase, fun hm => by obtain ⟨b, d, e, _⟩ := h.jobs _ hm; cases e⟩

theorem calm_step {ι : Type} {codecs : ι → Codec} {s s' : Inst ι} {e : Ev ι} {r : Option (Out Unit)} (h : NoClear s) (he : e ≠ .clear)
    (hs : Inst.step codecs s e = some (s', r)) : NoClear s' := by
  have hj := h.jobs
  unfold Inst.todo at hj
  simp only [List.mem_append, not_or] at hj
  obtain ⟨⟨hj1, hj2⟩, hj3⟩ := hj
  cases e with
  | put k t bs =>
    simp only [Inst.step] at hs
    split at hs
    · cases hs
    simp only [h.poisoned, h.valid, Bool.false_eq_true, if_false, Bool.true_eq_false, Option.some.injEq, Prod.mk.injEq] at hs
    obtain ⟨rfl, rfl⟩ := hs
    exact ⟨rfl, rfl, .inr (.inl ⟨_, rfl⟩), by simp [Inst.todo, Phase.inflight, hj1, hj2]⟩
  | delete k =>
    simp only [Inst.step] at hs
    split at hs
    · cases hs
    simp only [h.poisoned, h.valid, Bool.false_eq_true, if_false, Bool.true_eq_false] at hs
    split at hs
    · simp only [Option.some.injEq, Prod.mk.injEq] at hs; obtain ⟨rfl, rfl⟩ := hs; exact h
    · simp only [Option.some.injEq, Prod.mk.injEq] at hs; obtain ⟨rfl, rfl⟩ := hs
      exact ⟨rfl, rfl, .inr (.inl ⟨_, rfl⟩), by simp [Inst.todo, Phase.inflight, hj1, hj2]⟩
  | clear => exact absurd rfl he
  | drop =>
    simp only [Inst.step] at hs
    split at hs
    · cases hs
    simp only [Option.some.injEq, Prod.mk.injEq] at hs; obtain ⟨rfl, rfl⟩ := hs
    exact ⟨h.valid, h.poisoned, .inr (.inr (.inr rfl)), by simp [Inst.todo, Phase.inflight, Looper.dropSender, hj1, hj2]⟩
  | api i =>
    simp only [Inst.step] at hs
    rcases h.phase with hp | ⟨j, hp⟩ | hp | hp <;> rw [hp] at hs hj3 <;> simp only [Option.some.injEq, Prod.mk.injEq, reduceCtorEq] at hs
    · obtain ⟨rfl, rfl⟩ := hs
      refine ⟨h.valid, h.poisoned, .inr (.inr (.inl rfl)), ?_⟩
      simp only [Phase.inflight] at hj3
      simp only [Inst.todo, Phase.inflight, Looper.push, List.mem_append, not_or]
      split <;> simp_all
    · obtain ⟨rfl, rfl⟩ := hs
      refine ⟨h.valid, h.poisoned, .inl rfl, ?_⟩
      simp only [Inst.todo, Phase.inflight, Looper.send, List.mem_append, not_or]
      (repeat split) <;> simp_all
  | io o =>
    simp only [Inst.step] at hs
    split at hs
    · cases hs
    rename_i lp hlp
    simp only [Option.some.injEq, Prod.mk.injEq] at hs
    obtain ⟨rfl, rfl⟩ := hs
    refine ⟨h.valid, h.poisoned, h.phase, ?_⟩
    simp only [Inst.todo, List.mem_append, not_or]
    refine ⟨?_, hj3⟩
    unfold Looper.ioStep at hlp
    split at hlp
    · split at hlp
      · injection hlp with hlp; subst hlp; exact ⟨hj1, hj2⟩
      · injection hlp with hlp; subst hlp; exact ⟨hj1, hj2⟩
      · split at hlp
        · cases hlp
        · injection hlp with hlp; subst hlp; exact ⟨hj1, hj2⟩
    · injection hlp with hlp; subst hlp; exact ⟨hj2, hj1⟩
    · split at hlp
      · injection hlp with hlp; subst hlp; exact ⟨hj1, hj2⟩
      · rename_i hbuf
        rw [hbuf] at hj1
        simp only [List.mem_cons, not_or] at hj1
        split at hlp <;> (injection hlp with hlp; subst hlp; exact ⟨hj1.2, hj2⟩)
    · injection hlp with hlp; subst hlp; exact ⟨hj1, hj2⟩
    · cases hlp
    · cases hlp

/-- An event that leaves the background thread alive does not shorten the file. -/
theorem mono_step {s s' : Inst Unit} {e : Ev Unit} {r : Option (Out Unit)} (h : NoClear s) (he : e ≠ .clear)
    (hmm : s.lp.cb.ws.mmLen ≤ s.lp.cb.ws.file.length)
    (hs : Inst.step plain s e = some (s', r)) (ha : s'.Unpanicked) :
    s.lp.cb.ws.file.length ≤ s'.lp.cb.ws.file.length ∧ s'.lp.cb.ws.mmLen ≤ s'.lp.cb.ws.file.length := by
  have same : s'.lp.cb = s.lp.cb → s.lp.cb.ws.file.length ≤ s'.lp.cb.ws.file.length ∧ s'.lp.cb.ws.mmLen ≤ s'.lp.cb.ws.file.length :=
    fun e => by rw [e]; exact ⟨Nat.le_refl _, hmm⟩
  cases e with
  | put k t bs =>
    simp only [Inst.step] at hs
    split at hs
    · cases hs
    simp only [h.poisoned, h.valid, Bool.false_eq_true, if_false, Bool.true_eq_false, Option.some.injEq, Prod.mk.injEq] at hs
    obtain ⟨rfl, rfl⟩ := hs
    exact same rfl
  | delete k =>
    simp only [Inst.step] at hs
    split at hs
    · cases hs
    simp only [h.poisoned, h.valid, Bool.false_eq_true, if_false, Bool.true_eq_false] at hs
    split at hs <;> (simp only [Option.some.injEq, Prod.mk.injEq] at hs; obtain ⟨rfl, rfl⟩ := hs; exact same rfl)
  | clear => exact absurd rfl he
  | drop =>
    simp only [Inst.step] at hs
    split at hs
    · cases hs
    simp only [Option.some.injEq, Prod.mk.injEq] at hs; obtain ⟨rfl, rfl⟩ := hs; exact same rfl
  | api i =>
    simp only [Inst.step] at hs
    rcases h.phase with hp | ⟨j, hp⟩ | hp | hp <;> rw [hp] at hs <;> simp only [Option.some.injEq, Prod.mk.injEq, reduceCtorEq] at hs
    · obtain ⟨rfl, rfl⟩ := hs
      apply same
      simp only [Looper.push]
      split <;> rfl
    · obtain ⟨rfl, rfl⟩ := hs
      apply same
      simp only [Looper.send]
      (repeat split) <;> rfl
  | io o =>
    simp only [Inst.step] at hs
    split at hs
    · cases hs
    rename_i lp hlp
    simp only [Option.some.injEq, Prod.mk.injEq] at hs
    obtain ⟨rfl, rfl⟩ := hs
    unfold Looper.ioStep at hlp
    split at hlp
    · split at hlp
      · injection hlp with hlp; subst hlp; exact same rfl
      · injection hlp with hlp; subst hlp; exact same rfl
      · split at hlp
        · cases hlp
        · injection hlp with hlp; subst hlp; exact same rfl
    · injection hlp with hlp; subst hlp; exact same rfl
    · split at hlp
      · injection hlp with hlp; subst hlp; exact same rfl
      · rename_i j rest hbuf
        split at hlp
        · rename_i cb hx
          injection hlp with hlp; subst hlp
          cases j with
          | remove => exact absurd (by simp [Inst.todo, hbuf]) h.jobs
          | write b dup =>
            simp only [execJob] at hx
            split at hx
            · rename_i ws hw
              injection hx with hx; subst hx
              exact write_mono hmm hw
            · cases hx
        · injection hlp with hlp; subst hlp; exact absurd rfl ha.1
    · injection hlp with hlp; subst hlp; exact absurd rfl ha.2
    · cases hlp
    · cases hlp

theorem alive_step {s s' : Inst Unit} {e : Ev Unit} {r : Option (Out Unit)} (h : NoClear s) (he : e ≠ .clear)
    (hs : Inst.step plain s e = some (s', r)) (ha : s'.Unpanicked) : s.Unpanicked := by
  have same : s'.lp.io = s.lp.io → s.Unpanicked := fun e => by unfold Inst.Unpanicked at ha ⊢; rwa [e] at ha
  cases e with
  | put k t bs =>
    simp only [Inst.step] at hs
    split at hs
    · cases hs
    simp only [h.poisoned, h.valid, Bool.false_eq_true, if_false, Bool.true_eq_false, Option.some.injEq, Prod.mk.injEq] at hs
    obtain ⟨rfl, rfl⟩ := hs
    exact same rfl
  | delete k =>
    simp only [Inst.step] at hs
    split at hs
    · cases hs
    simp only [h.poisoned, h.valid, Bool.false_eq_true, if_false, Bool.true_eq_false] at hs
    split at hs <;> (simp only [Option.some.injEq, Prod.mk.injEq] at hs; obtain ⟨rfl, rfl⟩ := hs; exact same rfl)
  | clear => exact absurd rfl he
  | drop =>
    simp only [Inst.step] at hs
    split at hs
    · cases hs
    simp only [Option.some.injEq, Prod.mk.injEq] at hs; obtain ⟨rfl, rfl⟩ := hs; exact same rfl
  | api i =>
    simp only [Inst.step] at hs
    rcases h.phase with hp | ⟨j, hp⟩ | hp | hp <;> rw [hp] at hs <;> simp only [Option.some.injEq, Prod.mk.injEq, reduceCtorEq] at hs
    · obtain ⟨rfl, rfl⟩ := hs
      apply same
      simp only [Looper.push]
      split <;> rfl
    · obtain ⟨rfl, rfl⟩ := hs
      apply same
      simp only [Looper.send]
      split
      · split <;> rfl
      · rfl
  | io o =>
    simp only [Inst.step] at hs
    split at hs
    · cases hs
    rename_i lp hlp
    simp only [Option.some.injEq, Prod.mk.injEq] at hs
    obtain ⟨rfl, rfl⟩ := hs
    unfold Inst.Unpanicked at ha ⊢
    unfold Looper.ioStep at hlp
    cases hio : s.lp.io with
    | unwinding => rw [hio] at hlp; simp only [Option.some.injEq] at hlp; subst hlp; exact absurd rfl ha.2
    | dead => rw [hio] at hlp; cases hlp
    | _ => simp

/-- One event in one process, on a file that holds `items`. -/
theorem pinv_step {s s' : Inst Unit} {e : Ev Unit} {r : Option (Out Unit)} {content : Bytes} {items : List (Option Buffer)}
    (h : PInv s) (hv : SValid s.lp.cb.ws content items) (hok : ∀ b, some b ∈ items → crcOk b) (he : e ≠ .clear)
    (hsz : e.Sized) (hs : Inst.step plain s e = some (s', r)) (ha : s'.Unpanicked) (hb : s'.lp.cb.ws.file.length < 2 ^ 64) :
    PInv s' ∧ (s.todo = [] → s.effect e = none → s'.todo = []) ∧ s.lp.cb.ws.file.length ≤ s'.lp.cb.ws.file.length ∧
    ∃ content' items', SValid s'.lp.cb.ws content' items' ∧ (∀ b, some b ∈ items' → crcOk b) ∧
      (Store.empty.run (mutations items')).run (s'.todo.map Job.mutation) =
        ((Store.empty.run (mutations items)).run (s.todo.map Job.mutation)).run (s.effect e).toList := by
  cases e with
  | put k t bs =>
    simp only [Inst.step] at hs
    split at hs
    · cases hs
    rename_i hg
    have hidle : s.phase = .idle := by cases hp : s.phase <;> simp [hp] at hg ⊢
    have htok : tokenOk t = true := by simpa [hidle] using hg
    simp only [h.poisoned, h.valid, Bool.false_eq_true, if_false, Bool.true_eq_false, Option.some.injEq, Prod.mk.injEq] at hs
    obtain ⟨rfl, rfl⟩ := hs
    refine ⟨⟨rfl, rfl, .inr (.inl ⟨_, rfl⟩), h.bufEmpty, ?_⟩, ?_, Nat.le_refl _, content, items, hv, hok, ?_⟩
    · intro j hj
      simp only [Inst.todo, Phase.inflight, List.mem_append, List.mem_singleton] at hj
      rcases hj with hj | hj
      · exact h.jobs j (by simpa [Inst.todo, hidle, Phase.inflight] using hj)
      · refine ⟨_, _, hj, ?_⟩
        simp only [Ev.Sized, recordSize] at hsz
        simp only [crcOk, Buffer.ofRaw]
        omega
    · simp [Inst.effect]
    · simp only [Inst.todo, Phase.inflight, hidle, Inst.effect, Option.toList, List.map_append, List.map_cons, List.map_nil,
        Job.mutation, mutation_ofRaw htok, List.append_nil, run_append]
  | delete k =>
    simp only [Inst.step] at hs
    split at hs
    · cases hs
    rename_i hg
    have hidle : s.phase = .idle := by simpa using hg
    simp only [h.poisoned, h.valid, Bool.false_eq_true, if_false, Bool.true_eq_false] at hs
    split at hs
    · rename_i hn
      simp only [Option.some.injEq, Prod.mk.injEq] at hs
      obtain ⟨rfl, rfl⟩ := hs
      exact ⟨h, fun h0 _ => h0, Nat.le_refl _, content, items, hv, hok, by simp [Inst.effect, hn, Store.run]⟩
    · rename_i hn
      simp only [Option.some.injEq, Prod.mk.injEq] at hs
      obtain ⟨rfl, rfl⟩ := hs
      refine ⟨⟨rfl, rfl, .inr (.inl ⟨_, rfl⟩), h.bufEmpty, ?_⟩, ?_, Nat.le_refl _, content, items, hv, hok, ?_⟩
      · intro j hj
        simp only [Inst.todo, Phase.inflight, List.mem_append, List.mem_singleton] at hj
        rcases hj with hj | hj
        · exact h.jobs j (by simpa [Inst.todo, hidle, Phase.inflight] using hj)
        · refine ⟨_, _, hj, ?_⟩
          simp only [Ev.Sized, recordSize] at hsz
          simp only [crcOk, Buffer.deleted]
          omega
      · simp [Inst.effect, hn]
      · simp only [Inst.todo, Phase.inflight, hidle, Inst.effect, hn, Option.toList, List.map_append, List.map_cons,
          List.map_nil, Job.mutation, mutation_deleted, List.append_nil, run_append, Bool.false_eq_true, if_false]
  | clear => exact absurd rfl he
  | drop =>
    simp only [Inst.step] at hs
    split at hs
    · cases hs
    rename_i hg
    have hidle : s.phase = .idle := by simpa using hg
    simp only [Option.some.injEq, Prod.mk.injEq] at hs
    obtain ⟨rfl, rfl⟩ := hs
    have ht : Inst.todo { s with phase := .closed, lp := Looper.dropSender s.lp } = s.todo := by
      simp [Inst.todo, hidle, Phase.inflight, Looper.dropSender]
    refine ⟨⟨h.valid, h.poisoned, .inr (.inr (.inr rfl)), h.bufEmpty, ?_⟩, ?_, Nat.le_refl _, content, items, hv, hok, ?_⟩
    · rw [ht]; exact h.jobs
    · rw [ht]; exact fun h0 _ => h0
    · rw [ht]; simp [Inst.effect, Store.run]
  | api i =>
    simp only [Inst.step] at hs
    rcases h.phase with hp | ⟨j, hp⟩ | hp | hp <;> rw [hp] at hs <;> simp only [Option.some.injEq, Prod.mk.injEq, reduceCtorEq] at hs
    · obtain ⟨rfl, rfl⟩ := hs
      have ht : Inst.todo { s with phase := .send, lp := Looper.push s.lp j } = s.todo := by
        simp only [Inst.todo, hp, Phase.inflight, Looper.push]
        split <;> simp
      have hcb : (Looper.push s.lp j).cb = s.lp.cb := by simp only [Looper.push]; split <;> rfl
      have hbuf : (Looper.push s.lp j).buf = s.lp.buf := by simp only [Looper.push]; split <;> rfl
      have hio : (Looper.push s.lp j).io = s.lp.io := by simp only [Looper.push]; split <;> rfl
      refine ⟨⟨h.valid, h.poisoned, .inr (.inr (.inl rfl)), ?_, ?_⟩, ?_, ?_, content, items, ?_, hok, ?_⟩
      · simp only [hbuf, hio]; exact h.bufEmpty
      · rw [ht]; exact h.jobs
      · rw [ht]; exact fun h0 _ => h0
      · simp only [hcb]; exact Nat.le_refl _
      · simp only [hcb]; exact hv
      · rw [ht]; simp [Inst.effect, Store.run]
    · obtain ⟨rfl, rfl⟩ := hs
      have hcb : (Looper.send s.lp).1.cb = s.lp.cb := by simp only [Looper.send]; (repeat split) <;> rfl
      have hbuf : (Looper.send s.lp).1.buf = s.lp.buf := by simp only [Looper.send]; (repeat split) <;> rfl
      have hq : (Looper.send s.lp).1.queue = s.lp.queue := by simp only [Looper.send]; (repeat split) <;> rfl
      have hio : (Looper.send s.lp).1.io = s.lp.io := by simp only [Looper.send]; (repeat split) <;> rfl
      have ht : Inst.todo { s with phase := .idle, lp := (Looper.send s.lp).1 } = s.todo := by
        simp only [Inst.todo, hp, Phase.inflight, hbuf, hq]
      refine ⟨⟨h.valid, h.poisoned, .inl rfl, ?_, ?_⟩, ?_, ?_, content, items, ?_, hok, ?_⟩
      · simp only [hbuf, hio]; exact h.bufEmpty
      · rw [ht]; exact h.jobs
      · rw [ht]; exact fun h0 _ => h0
      · simp only [hcb]; exact Nat.le_refl _
      · simp only [hcb]; exact hv
      · rw [ht]; simp [Inst.effect, Store.run]
  | io o =>
    simp only [Inst.step] at hs
    split at hs
    · cases hs
    rename_i lp hlp
    simp only [Option.some.injEq, Prod.mk.injEq] at hs
    obtain ⟨rfl, rfl⟩ := hs
    have keep : ∀ lp' : Looper.St Order Job Cb, lp'.cb = s.lp.cb → lp'.buf ++ lp'.queue = s.lp.buf ++ s.lp.queue →
        (lp'.io = .recv ∨ lp'.io = .swap ∨ lp'.io = .exited → lp'.buf = []) →
        PInv { s with lp := lp' } ∧ (s.todo = [] → s.effect (.io o) = none → Inst.todo { s with lp := lp' } = []) ∧
        s.lp.cb.ws.file.length ≤ lp'.cb.ws.file.length ∧
        ∃ content' items', SValid lp'.cb.ws content' items' ∧ (∀ b, some b ∈ items' → crcOk b) ∧
          (Store.empty.run (mutations items')).run ((Inst.todo { s with lp := lp' }).map Job.mutation) =
            ((Store.empty.run (mutations items)).run (s.todo.map Job.mutation)).run (s.effect (.io o)).toList := by
      intro lp' hcb hbq hbe
      have ht : Inst.todo { s with lp := lp' } = s.todo := by simp only [Inst.todo]; rw [hbq]
      refine ⟨⟨h.valid, h.poisoned, h.phase, hbe, ?_⟩, ?_, ?_, content, items, ?_, hok, ?_⟩
      · rw [ht]; exact h.jobs
      · rw [ht]; exact fun h0 _ => h0
      · simp only [hcb]; exact Nat.le_refl _
      · simp only [hcb]; exact hv
      · rw [ht]; simp [Inst.effect, Store.run]
    unfold Looper.ioStep at hlp
    cases hio : s.lp.io with
    | unwinding => rw [hio] at hlp; simp only [Option.some.injEq] at hlp; subst hlp; exact absurd rfl ha.2
    | dead => rw [hio] at hlp; cases hlp
    | exited => rw [hio] at hlp; cases hlp
    | recv =>
      rw [hio] at hlp
      have hbe := h.bufEmpty (.inl hio)
      simp only at hlp
      split at hlp
      · simp only [Option.some.injEq] at hlp; subst hlp
        exact keep _ rfl rfl (fun _ => hbe)
      · simp only [Option.some.injEq] at hlp; subst hlp
        exact keep _ rfl rfl (fun _ => hbe)
      · split at hlp
        · cases hlp
        · simp only [Option.some.injEq] at hlp; subst hlp
          exact keep _ rfl rfl (fun _ => hbe)
    | swap =>
      rw [hio] at hlp
      have hbe := h.bufEmpty (.inr (.inl hio))
      simp only [Option.some.injEq] at hlp; subst hlp
      refine keep _ rfl ?_ (by simp)
      simp [hbe]
    | run =>
      rw [hio] at hlp
      simp only at hlp
      split at hlp
      · rename_i hbuf
        simp only [Option.some.injEq] at hlp; subst hlp
        exact keep _ rfl rfl (fun _ => hbuf)
      · rename_i j rest hbuf
        have hjmem : j ∈ s.todo := by simp [Inst.todo, hbuf]
        obtain ⟨b, dup, rfl, hokb⟩ := h.jobs j hjmem
        simp only [execJob] at hlp
        split at hlp
        · rename_i cb hx
          simp only [Option.some.injEq] at hlp; subst hlp
          split at hx
          · rename_i ws hw
            injection hx with hx
            subst hx
            have hall : ∀ b', some b' ∈ items ++ [some b] → crcOk b' := by
              intro b' hb'
              rcases List.mem_append.1 hb' with hb' | hb'
              · exact hok b' hb'
              · simp at hb'; subst hb'; exact hokb
            obtain ⟨content', items', v', ok', hle, heq⟩ := SValid.write o hsz b dup hv hall hw hb
            refine ⟨⟨h.valid, h.poisoned, h.phase, ?_, ?_⟩, ?_, hle, content', items', v', ok', ?_⟩
            · simp
            · intro j hj
              refine h.jobs j ?_
              simp only [Inst.todo, List.mem_append] at hj ⊢
              rcases hj with (hj | hj) | hj
              · left; left; rw [hbuf]; exact List.mem_cons_of_mem _ hj
              · left; right; exact hj
              · right; exact hj
            · intro h0
              rw [h0] at hjmem
              cases hjmem
            · rw [heq]
              simp only [Inst.todo, hbuf, Inst.effect, Option.toList, List.cons_append, List.map_cons, Job.mutation]
              rfl
          · cases hx
        · simp only [Option.some.injEq] at hlp; subst hlp
          exact absurd rfl ha.1

end Mmkv
