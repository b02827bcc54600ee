import Verif.Lemmas.Writer
/-! What happens when a record does not fit: the write panics, and the length header it leaves behind points past the end
of the file. -/

namespace Mmkv
variable {c : Codec} {s : WState} {content : Bytes} {items : List (Option Buffer)}
variable {okB : Buffer → Prop} {posOk : Nat → Prop} {recLen : Buffer → Nat}
open Spec

/-- A file whose length header points past its end. -/
def BadHeader (file : Bytes) : Prop := 8 ≤ file.length ∧ file.length < beVal (file.take 8) + 8

/-- `append` when there is no room: the header has been written already. -/
theorem append_bad (usz : s.usizeBytes = 8) (mm : s.mmLen = s.file.length) (h : Holds s.file content)
    (bytes : Bytes) (hfit : s.file.length < content.length + 8 + bytes.length) (hb : content.length + bytes.length + 8 < 2 ^ 64) :
    ∃ s', s.append bytes = .panic s' ∧ BadHeader s'.file := by
  have hl := h.len
  refine ⟨{ s with file := splice s.file 0 (beBytes 8 (bytes.length + content.length)),
                   log := s.log ++ [.store 0 (beBytes 8 (bytes.length + content.length))] }, ?_, ?_⟩
  · unfold WState.append
    rw [writeOffset_eq usz mm h]
    simp only [WState.lenOffset, Nat.add_sub_cancel]
    unfold WState.storeLen WState.lenOffset
    rw [if_neg (by omega)]
    unfold WState.store
    rw [if_pos (by simp; omega)]
    simp only [Run.andThen_done]
    rw [if_neg (by omega)]
  · have hlen := splice_length s.file 0 (beBytes 8 (bytes.length + content.length)) (by simp; omega)
    have ht : (splice s.file 0 (beBytes 8 (bytes.length + content.length))).take 8 = beBytes 8 (bytes.length + content.length) := by
      simp only [splice, List.take_zero, List.nil_append]
      exact List.take_left' (beBytes_length 8 _)
    unfold BadHeader
    rw [ht, beVal_beBytes _ _ (by omega), hlen]
    omega

/-- The rewrite loop, without any condition on the sizes. -/
theorem trimLoop_or (hl : LawfulCodec c okB posOk recLen) (maxLen : Nat) :
    ∀ (bs : List Buffer) (s : WState) (content : Bytes) (items : List (Option Buffer)),
      Valid c s content items → s.quota = none → maxLen ≤ s.file.length →
      (∀ b ∈ bs, okB b) →
      content.length + sumLen recLen bs + 8 < 2 ^ 64 →
      posOk (items.length + bs.length) →
      (∃ s' content', WState.trimLoop c maxLen bs s = .done s' ∧
        Valid c s' content' (items ++ bs.map some) ∧ SameConf s s' ∧
        content'.length = content.length + sumLen recLen bs ∧
        s'.needTrim = s.needTrim ∧
        s'.file.length = s.file.length + overflows recLen maxLen (content.length + 8) bs * s.page) ∨
      ∃ s', WState.trimLoop c maxLen bs s = .panic s' ∧ BadHeader s'.file := by
  intro bs
  induction bs with
  | nil =>
    intro s content items h _ _ _ _ _
    exact .inl ⟨s, content, rfl, by simpa using h, .rfl', by simp [sumLen], rfl, by simp [overflows]⟩
  | cons b bs ih =>
    intro s content items h hq hmax hbs hbound hpos
    have hokb := hbs b List.mem_cons_self
    rw [sumLen_cons] at hbound
    simp only [List.length_cons] at hpos
    have hpos' : posOk items.length := hl.posOk_mono _ _ hpos (by omega)
    obtain ⟨r, hr, hrl, hfr⟩ := framed_enc hl b items.length hokb hpos'
    have hoff := writeOffset_eq h.usz h.mm h.holds
    have hle := h.holds.len
    have henc : c.enc b s.position = some r := by rw [h.pos]; exact hr
    unfold WState.trimLoop
    rw [henc]
    simp only [hoff]
    -- the state after the possible expansion
    have hstep : ∃ s1, (if content.length + 8 + r.length > maxLen then s.expand else .done s) = Run.done s1 ∧
        Valid c s1 content items ∧ SameConf s s1 ∧
        s1.needTrim = s.needTrim ∧ maxLen ≤ s1.file.length ∧
        s1.file.length = s.file.length + (if content.length + 8 + recLen b > maxLen then 1 else 0) * s.page := by
      rw [← hrl]
      by_cases hgt : content.length + 8 + r.length > maxLen
      · rw [if_pos hgt, if_pos hgt]
        obtain ⟨s1, e1, v1, c1, l1, t1, _, _⟩ := expand_done h hq
        exact ⟨s1, e1, v1, c1, t1, by omega, by simpa using l1⟩
      · rw [if_neg hgt, if_neg hgt]
        exact ⟨s, rfl, h, .rfl', rfl, hmax, by simp⟩
    obtain ⟨s1, e1, v1, c1, t1, m1, l1⟩ := hstep
    rw [e1]
    simp only [Run.andThen_done]
    by_cases f1 : content.length + 8 + r.length ≤ s1.file.length
    rotate_left
    · obtain ⟨s2, e2, b2⟩ := append_bad v1.usz v1.mm v1.holds r (by omega) (by omega)
      right
      exact ⟨s2, by rw [e2]; rfl, b2⟩
    obtain ⟨s2, e2, v2, c2, l2, t2, _, _⟩ := appendRec_done v1 r b hfr f1 (by
      omega)
    rw [e2]
    simp only [Run.andThen_done]
    have hpage : s2.page = s.page := c2.page.trans c1.page
    have hcl : (content ++ r).length = content.length + recLen b := by simp [hrl]
    rcases ih s2 (content ++ r) (items ++ [some b]) v2
      (by rw [c2.quota, c1.quota, hq]) (by omega)
      (fun b' hb' => hbs b' (List.mem_cons_of_mem _ hb'))
      (by rw [hcl]; omega)
      (by have : (items ++ [some b]).length + bs.length = items.length + (bs.length + 1) := by simp; omega
          rw [this]; exact hpos) with ⟨s3, content3, e3, v3, c3, cl3, t3, l3⟩ | h3
    · left
      refine ⟨s3, content3, e3, by simpa using v3, (c1.trans c2).trans c3, ?_, by rw [t3, t2, t1], ?_⟩
      · rw [cl3, hcl, sumLen_cons]; omega
      · have e : content.length + recLen b + 8 = content.length + 8 + recLen b := by omega
        rw [l3, l2, l1, hpage, hcl, e, overflows, Nat.add_mul]; omega
    · exact .inr h3

/-- **The writer theorem**, one write of any size: it does its job, or it panics and the header points past the end. -/
theorem write_or (hl : LawfulCodec c okB posOk recLen) (order : List Buffer → List Buffer)
    (ho : ∀ l, (order l).Perm l) (b : Buffer) (dup : Bool)
    (hv : Valid c s content items) (hq : s.quota = none) (hbufs : ∀ b', some b' ∈ items ++ [some b] → okB b')
    (hb1 : content.length + recLen b + 8 < 2 ^ 64) (hb2 : recSum recLen items + recLen b + 8 < 2 ^ 64)
    (hpos : posOk (items.length + 1)) :
    (∃ s' content' items', WState.write c order b dup s = .done s' ∧ Valid c s' content' items' ∧ SameConf s s' ∧
      Shape recLen order b dup s content items s' content' items' ∧
      Store.empty.run (mutations items') = (Store.empty.run (mutations items)).apply b.mutation) ∨
    ∃ s', WState.write c order b dup s = .panic s' ∧ BadHeader s'.file := by
  have hpos' : posOk items.length := hl.posOk_mono _ _ hpos (by omega)
  have hokb := hbufs b (by simp)
  obtain ⟨r, hr, hrl, hfr⟩ := framed_enc hl b items.length hokb hpos'
  have hlen := hv.holds.len
  have hrun : Store.empty.run (mutations (items ++ [some b])) =
      (Store.empty.run (mutations items)).apply b.mutation := by
    simp [mutations, Store.run]
  -- the state once the flag is set
  generalize hs0 : (if dup = true then { s with needTrim := true } else s) = s0
  have hfile0 : s0.file = s.file := by rw [← hs0]; split <;> rfl
  have hv0 : Valid c s0 content items := by
    rw [← hs0]; split
    · exact ⟨hv.usz, hv.mm, hv.holds, hv.framed, hv.pos⟩
    · exact hv
  have hconf0 : SameConf s s0 := by rw [← hs0]; split <;> exact ⟨rfl, rfl, rfl⟩
  have htrim0 : s0.needTrim = (s.needTrim || dup) := by
    rw [← hs0]; split
    · rename_i hd; simp [hd]
    · rename_i hd; simp [hd]
  have hq0 : s0.quota = none := by rw [hconf0.quota, hq]
  have henc : c.enc b s.position = some r := by rw [hv.pos]; exact hr
  unfold WState.write
  rw [henc]
  simp only [writeOffset_eq hv.usz hv.mm hv.holds, hs0]
  by_cases hfit : r.length + (content.length + 8) ≤ s.mmLen
  · rw [if_pos hfit]
    rw [hv.mm] at hfit
    obtain ⟨s1, e1, v1, c1, l1, t1, _, _⟩ := appendRec_done hv0 r b hfr (by rw [hfile0]; omega) (by omega)
    left
    exact ⟨s1, _, _, e1, v1, hconf0.trans c1,
      .append (by omega) rfl ⟨r, hrl, rfl⟩ (by rw [l1, hfile0]) (by rw [t1, htrim0]), hrun⟩
  · rw [if_neg hfit]
    rw [hv.mm] at hfit
    cases hnt : s0.needTrim with
    | false =>
      simp only [Bool.false_eq_true, if_false]
      obtain ⟨s1, e1, v1, c1, l1, t1, _, _⟩ := expand_done hv0 hq0
      rw [e1]
      simp only [Run.andThen_done]
      by_cases hroom : content.length + 8 + r.length ≤ s.file.length + s.page
      rotate_left
      · obtain ⟨s2, e2, b2⟩ := append_bad v1.usz v1.mm v1.holds r (by rw [l1, hfile0, hconf0.page]; omega) (by omega)
        right
        exact ⟨s2, by rw [e2]; rfl, b2⟩
      obtain ⟨s2, e2, v2, c2, l2, t2, _, _⟩ := appendRec_done v1 r b hfr
        (by rw [l1, hfile0, hconf0.page]; omega) (by omega)
      left
      have hc := (hconf0.trans c1).trans c2
      exact ⟨s2, _, _, e2, v2, hc, .expand (by omega) (by rw [← htrim0, hnt]) rfl ⟨r, hrl, rfl⟩
        (by rw [l2, l1, hfile0, hconf0.page]) (by rw [t2, t1, hnt]), hrun⟩
    | true =>
      simp only [if_true, readItems_eq hv0]
      -- the snapshot
      have hmemS := fun b' => @mem_snapshot items b b'
      have hmlen := snapshot_length items b
      have hmsum := snapshot_sum (recLen := recLen) items b
      have hmwf : MapWF (mapStep (intoMap items).1 (some b)) := (MapWF.intoMap items).mapStep _
      have hview : view (mapStep (intoMap items).1 (some b)) = (Store.empty.run (mutations items)).apply b.mutation := by
        rw [view_mapStep_some, view_intoMap]
      generalize hm : mapStep (intoMap items).1 (some b) = m at *
      have hmem : ∀ b' ∈ order m.values, some b' ∈ items ++ [some b] :=
        fun b' hb' => hmemS b' ((ho _).mem_iff.1 hb')
      have hvlen : (order m.values).length = m.length := by
        rw [(ho _).length_eq]; simp [KvMap.values]
      have hvsum : sumLen recLen (order m.values) = sumLen recLen m.values := sumLen_perm _ (ho _)
      -- reset
      obtain ⟨hr1, hr2⟩ := holds_reset hv0.holds
      have hr3 : (splice s0.file 0 (beBytes 8 0)).length = s.file.length := by rw [hr2, hfile0]
      have hreset : s0.reset = .done { s0 with
          file := splice s0.file 0 (beBytes 8 0), log := s0.log ++ [.store 0 (beBytes 8 0)] } := by
        unfold WState.reset WState.storeLen WState.lenOffset
        rw [if_neg (by have := hv0.usz; omega)]
        unfold WState.store
        rw [if_pos (by have := hv0.mm; have := hv0.holds.len; simp; omega)]
      rw [hreset]
      simp only [Run.andThen_done]
      have hv1 : Valid c { s0 with
          file := splice s0.file 0 (beBytes 8 0), log := s0.log ++ [.store 0 (beBytes 8 0)], position := 0 } [] [] :=
        ⟨hv0.usz, by simp [hv0.mm, hr2], hr1, .nil _, rfl⟩
      have hbnd : ([] : Bytes).length + sumLen recLen (order m.values) + 8 < 2 ^ 64 := by
        rw [hvsum]
        simp only [List.length_nil]; omega
      rcases trimLoop_or hl s.mmLen (order m.values) _ [] []
        hv1 hq0 (by simp only [hr3, hv.mm]; exact Nat.le_refl _)
        (fun b' hb' => hbufs b' (hmem b' hb')) hbnd
        (hl.posOk_mono _ _ hpos (by simp; omega)) with ⟨s2, content2, e2, v2, c2, cl2, t2, l2⟩ | ⟨s2, e2, b2⟩
      rotate_left
      · right
        exact ⟨s2, by rw [e2]; rfl, b2⟩
      left
      rw [e2]
      simp only [Run.andThen_done]
      have hc : SameConf s s2 := ⟨c2.page.trans hconf0.page, c2.usz.trans hconf0.usz, c2.quota.trans hconf0.quota⟩
      refine ⟨_, content2, (order m.values).map some, rfl, ⟨v2.usz, v2.mm, v2.holds, by simpa using v2.framed,
        by simpa using v2.pos⟩, ⟨hc.page, hc.usz, hc.quota⟩, ?_, ?_⟩
      · refine .trim (by omega) (by rw [← htrim0, hnt]) (by rw [hm]) ?_ ?_ rfl
        · rw [hm, cl2, hvsum]; simp
        · simp only [hr3, hconf0.page, List.length_nil, Nat.zero_add, hv.mm] at l2
          rw [hm]; exact l2
      · rw [run_values m hmwf _ (ho _), hview]

end Mmkv
