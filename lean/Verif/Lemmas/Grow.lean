import Verif.Model.Grow
import Verif.Lemmas.Durable
import Verif.Lemmas.Crash
/-! What a failed growth leaves in the file. -/

namespace Mmkv
open Spec

variable {ι : Type} {c : Codec} {s : WState} {content : Bytes} {items : List (Option Buffer)}
variable {okB : Buffer → Prop} {posOk : Nat → Prop} {recLen : Buffer → Nat}

/-- A failed growth does not touch what the file holds. -/
theorem growFail_holds (h : Holds s.file content) (p : GrowCall) : Holds (s.growFail p).file content := by
  cases p with
  | stat | sync | resize => exact h
  | restat | map | flush => exact holds_expand h _

/-- The rewrite loop with a failing growth: as without, or it stops between two records, before the last. -/
theorem trimLoopF_cases (hl : LawfulCodec c okB posOk recLen) (maxLen : Nat) (p : GrowCall) :
    ∀ (bs : List Buffer) (skip : Nat) (s : WState) (content : Bytes) (items : List (Option Buffer)),
      Valid c s content items → s.quota = none → maxLen ≤ s.file.length → (∀ b ∈ bs, okB b) →
      ((∀ b ∈ bs, recLen b ≤ s.page) ∨ content.length + 8 + sumLen recLen bs ≤ maxLen + s.page) →
      content.length + sumLen recLen bs + 8 < 2 ^ 64 → posOk (items.length + bs.length) →
      WState.trimLoopF c maxLen p skip bs s = WState.trimLoop c maxLen bs s ∨
      ∃ t content' j, WState.trimLoopF c maxLen p skip bs s = .panic (t.growFail p) ∧ j < bs.length ∧
        Valid c t content' (items ++ (bs.take j).map some) ∧ SameConf s t ∧
        content'.length = content.length + sumLen recLen (bs.take j) := by
  intro bs
  induction bs with
  | nil => intro skip s content items h _ _ _ _ _ _; exact .inl (by unfold WState.trimLoopF WState.trimLoop; rfl)
  | cons b bs ih =>
    intro skip s content items h hq hmax hbs hcond hbound hpos
    have hokb := hbs b List.mem_cons_self
    rw [sumLen_cons] at hbound hcond
    simp only [List.length_cons] at hpos
    have hpos' : posOk items.length := hl.posOk_mono _ _ hpos (by omega)
    obtain ⟨r, hr, hrl, hfr⟩ := framed_enc hl b items.length hokb hpos'
    have hoff := writeOffset_eq h.usz h.mm h.holds
    have henc : c.enc b s.position = some r := by rw [h.pos]; exact hr
    have hle := h.holds.len
    -- after the record is written the loop goes on
    have hgo : ∀ (skip : Nat) (s1 : WState), Valid c s1 content items → SameConf s s1 → maxLen ≤ s1.file.length →
        content.length + 8 + r.length ≤ s1.file.length →
        (((s1.append r).andThen fun s => .done { s with position := s.position + 1 }).andThen
            fun s => WState.trimLoopF c maxLen p skip bs s) =
          (((s1.append r).andThen fun s => .done { s with position := s.position + 1 }).andThen
            fun s => WState.trimLoop c maxLen bs s) ∨
        ∃ t content' j, (((s1.append r).andThen fun s => .done { s with position := s.position + 1 }).andThen
            fun s => WState.trimLoopF c maxLen p skip bs s) = .panic (t.growFail p) ∧ j < (b :: bs).length ∧
          Valid c t content' (items ++ ((b :: bs).take j).map some) ∧ SameConf s t ∧
          content'.length = content.length + sumLen recLen ((b :: bs).take j) := by
      intro skip s1 v1 c1 m1 f1
      obtain ⟨s2, e2, v2, c2, l2, t2, _, _⟩ := appendRec_done v1 r b hfr f1 (by omega)
      rw [e2]
      simp only [Run.andThen_done]
      have hpage : s2.page = s.page := c2.page.trans c1.page
      have hcl : (content ++ r).length = content.length + recLen b := by simp [hrl]
      rcases ih skip s2 (content ++ r) (items ++ [some b]) v2
        (by rw [c2.quota, c1.quota, hq]) (by omega)
        (fun b' hb' => hbs b' (List.mem_cons_of_mem _ hb'))
        (by
          rw [hpage, hcl]
          rcases hcond with hc | hc
          · exact .inl fun b' hb' => hc b' (List.mem_cons_of_mem _ hb')
          · exact .inr (by omega))
        (by rw [hcl]; omega)
        (by have : (items ++ [some b]).length + bs.length = items.length + (bs.length + 1) := by simp; omega
            rw [this]; exact hpos) with h1 | ⟨t, content', j, h1, h2, h3, h4, h5⟩
      · exact .inl h1
      · refine .inr ⟨t, content', j + 1, h1, by simp; omega, by simpa using h3, (c1.trans c2).trans h4, ?_⟩
        rw [h5, hcl, List.take_succ_cons, sumLen_cons]; omega
    unfold WState.trimLoopF WState.trimLoop
    rw [henc]
    simp only [hoff]
    by_cases hgt : content.length + 8 + r.length > maxLen
    · rw [if_pos hgt, if_pos hgt]
      cases skip with
      | zero =>
        exact .inr ⟨s, content, 0, rfl, by simp, by simpa using h, .rfl', by simp [sumLen]⟩
      | succ skip =>
        obtain ⟨s1, e1, v1, c1, l1, t1, _, _⟩ := expand_done h hq
        simp only [e1, Run.andThen_done]
        refine hgo skip s1 v1 c1 (by omega) ?_
        rcases hcond with hc | hc
        · have := hc b List.mem_cons_self; omega
        · omega
    · rw [if_neg hgt, if_neg hgt]
      simp only [Run.andThen_done]
      exact hgo skip s h .rfl' hmax (by omega)

/-- A write with a failing growth: as without it, or it stops with the file as it was, or in the middle of a compaction
with some, not all, of the records of the new map. -/
theorem writeF_cases (hl : LawfulCodec c okB posOk recLen) (order : List Buffer → List Buffer)
    (ho : ∀ l, (order l).Perm l) (b : Buffer) (dup : Bool) {foreign : Prop} (K : Nat)
    (h : WInv c okB recLen foreign K s content items)
    (hokb : okB b) (hlenb : recLen b ≤ s.page) (hbound : s.page * (K + 1) + 8 < 2 ^ 64) (hpos : posOk (K + 1))
    (skip : Nat) (p : GrowCall) :
    s.writeF c order b dup skip p = s.write c order b dup ∨
    ((s.needTrim || dup) = false ∧ s.writeF c order b dup skip p = .panic (s.growFail p)) ∨
    ((s.needTrim || dup) = true ∧ ∃ t content' j, s.writeF c order b dup skip p = .panic (t.growFail p) ∧
      j < (order (mapStep (intoMap items).1 (some b)).values).length ∧
      Valid c t content' (((order (mapStep (intoMap items).1 (some b)).values).take j).map some) ∧ SameConf s t ∧
      content'.length = sumLen recLen ((order (mapStep (intoMap items).1 (some b)).values).take j)) := by
  have hv := h.toValid
  have hcount := h.count
  have hpos' : posOk items.length := hl.posOk_mono _ _ hpos (by omega)
  obtain ⟨r, hr, hrl, hfr⟩ := framed_enc hl b items.length hokb hpos'
  have hlen := hv.holds.len
  have hfull_of : ¬ (r.length + (content.length + 8) ≤ s.mmLen) → s.file.length < content.length + 8 + r.length := by
    have := hv.mm; omega
  by_cases hfit : r.length + (content.length + 8) ≤ s.mmLen
  · left
    unfold WState.writeF WState.write
    rw [show c.enc b s.position = some r by rw [hv.pos]; exact hr]
    simp only [writeOffset_eq hv.usz hv.mm hv.holds, if_pos hfit]
  cases hnt : s.needTrim || dup with
  | false =>
    have hsd : s.needTrim = false ∧ dup = false := by simpa using hnt
    cases skip with
    | zero =>
      right; left
      refine ⟨rfl, ?_⟩
      unfold WState.writeF
      rw [show c.enc b s.position = some r by rw [hv.pos]; exact hr]
      simp only [writeOffset_eq hv.usz hv.mm hv.holds, if_neg hfit, hsd.2, Bool.false_eq_true, if_false, hsd.1]
    | succ skip =>
      left
      unfold WState.writeF WState.write
      rw [show c.enc b s.position = some r by rw [hv.pos]; exact hr]
      simp only [writeOffset_eq hv.usz hv.mm hv.holds, if_neg hfit, hsd.2, Bool.false_eq_true, if_false, hsd.1]
  | true =>
    obtain ⟨s0, hs0, f1, f2, f3, f4, f5, f6, f7, f8⟩ := write_flag dup s
    have hv0 := valid_flag hv f1 f3 f4 f5
    have hreset : s0.reset = .done { s0 with
        file := splice s0.file 0 (beBytes 8 0), log := s0.log ++ [.store 0 (beBytes 8 0)] } := by
      unfold WState.reset WState.storeLen WState.lenOffset
      rw [if_neg (by have := hv0.usz; omega)]
      unfold WState.store
      rw [if_pos (by have := hv0.mm; have := hv0.holds.len; simp; omega)]
    obtain ⟨hr1, hr2⟩ := holds_reset hv0.holds
    have v1 : Valid c { s0 with file := splice s0.file 0 (beBytes 8 0), log := s0.log ++ [.store 0 (beBytes 8 0)], position := 0 } [] [] :=
      ⟨hv0.usz, by simp [hv0.mm, hr2], hr1, .nil _, rfl⟩
    have hperm := ho (mapStep (intoMap items).1 (some b)).values
    have hvals : ∀ b' ∈ order (mapStep (intoMap items).1 (some b)).values, some b' ∈ items ++ [some b] :=
      fun b' hb' => mem_snapshot (hperm.mem_iff.1 hb')
    have hok : ∀ b' ∈ order (mapStep (intoMap items).1 (some b)).values, okB b' := by
      intro b' hb'
      have := hvals b' hb'
      simp only [List.mem_append, List.mem_singleton] at this
      rcases this with hb'' | hb''
      · exact h.bufs b' hb''
      · injection hb'' with hb''; subst hb''; exact hokb
    have hsum := snapshot_sum (recLen := recLen) items b
    have hsz := h.size
    have hbd : s.page * K + s.page + 8 < 2 ^ 64 := by rw [Nat.mul_add, Nat.mul_one] at hbound; exact hbound
    have hsumle : sumLen recLen (order (mapStep (intoMap items).1 (some b)).values) = sumLen recLen (mapStep (intoMap items).1 (some b)).values :=
      sumLen_perm _ hperm
    have hlenv : (order (mapStep (intoMap items).1 (some b)).values).length ≤ K + 1 := by
      rw [hperm.length_eq]
      have := snapshot_length items b
      unfold KvMap.values
      rw [List.length_map]; omega
    have hall : (∀ b', some b' ∈ items → recLen b' ≤ s.page) → ∀ b' ∈ order (mapStep (intoMap items).1 (some b)).values, recLen b' ≤ s.page := by
      intro hit b' hb'
      have := hvals b' hb'
      simp only [List.mem_append, List.mem_singleton] at this
      rcases this with hb'' | hb''
      · exact hit b' hb''
      · injection hb'' with hb''; subst hb''; exact hlenb
    have key := trimLoopF_cases hl s.mmLen p (order (mapStep (intoMap items).1 (some b)).values) skip
      { s0 with file := splice s0.file 0 (beBytes 8 0), log := s0.log ++ [.store 0 (beBytes 8 0)], position := 0 } [] [] v1
      (by show s0.quota = none; rw [f6, h.quota]) (by show s.mmLen ≤ (splice s0.file 0 (beBytes 8 0)).length; rw [hr2, f1, hv.mm]; exact Nat.le_refl _) hok
      (by
        rcases h.fits with hf | hf
        · exact .inl fun b' hb' => by
            show recLen b' ≤ s0.page
            rw [f7]; exact hall hf.2 b' hb'
        · refine .inr ?_
          show 0 + 8 + _ ≤ s.mmLen + s0.page
          have := hv.mm
          rw [hsumle, f7]; omega)
      (by
        show 0 + _ + 8 < _
        rw [hsumle]
        rcases h.fits with hf | hf
        · have := sumLen_le recLen s.page _ (hall hf.2)
          have h2 := Nat.mul_le_mul_left s.page hlenv
          rw [hsumle] at this
          omega
        · omega)
      (hl.posOk_mono _ _ hpos (by simpa using hlenv))
    have hw : s.writeF c order b dup skip p =
        (WState.trimLoopF c s.mmLen p skip (order (mapStep (intoMap items).1 (some b)).values)
          { s0 with file := splice s0.file 0 (beBytes 8 0), log := s0.log ++ [.store 0 (beBytes 8 0)], position := 0 }).andThen
        fun s => .done { s with needTrim := false } := by
      unfold WState.writeF
      rw [show c.enc b s.position = some r by rw [hv.pos]; exact hr]
      simp only [writeOffset_eq hv.usz hv.mm hv.holds, hs0]
      rw [if_neg hfit, if_pos (by rw [f8, hnt])]
      simp only [readItems_eq hv0, hreset, Run.andThen_done]
    have hw' : s.write c order b dup =
        (WState.trimLoop c s.mmLen (order (mapStep (intoMap items).1 (some b)).values)
          { s0 with file := splice s0.file 0 (beBytes 8 0), log := s0.log ++ [.store 0 (beBytes 8 0)], position := 0 }).andThen
        fun s => .done { s with needTrim := false } := by
      unfold WState.write
      rw [show c.enc b s.position = some r by rw [hv.pos]; exact hr]
      simp only [writeOffset_eq hv.usz hv.mm hv.holds, hs0]
      rw [if_neg hfit, if_pos (by rw [f8, hnt])]
      simp only [readItems_eq hv0, hreset, Run.andThen_done]
    rcases key with h1 | ⟨t, content', j, h1, h2, h3, h4, h5⟩
    · left; rw [hw, hw', h1]
    · right; right
      refine ⟨rfl, t, content', j, ?_, h2, by simpa using h3, ⟨h4.page.trans f7, h4.usz.trans f4, h4.quota.trans f6⟩, by simpa using h5⟩
      rw [hw, h1]
      rfl

/-- The call behind a job. -/
theorem Track.mid {B : Store} {cs js : List Mutation} (h : Track B cs js) {ja jb : List Mutation} {m : Mutation} (hj : js = ja ++ m :: jb) :
    ∃ ca cb, cs = ca ++ m :: cb ∧ B.run ca = B.run ja := by
  induction h generalizing ja jb with
  | nil => simp at hj
  | @both cs js m' h hm ih =>
    rcases List.eq_nil_or_concat jb with rfl | ⟨jb', x, rfl⟩
    · obtain ⟨rfl, hx⟩ := List.append_inj' hj rfl
      cases hx
      exact ⟨cs, [], rfl, h.run_eq⟩
    · have : js ++ [m'] = (ja ++ m :: jb') ++ [x] := by rw [hj]; simp
      obtain ⟨rfl, hx⟩ := List.append_inj' this rfl
      cases hx
      obtain ⟨ca, cb, rfl, hr⟩ := ih rfl
      exact ⟨ca, cb ++ [m'], by simp, hr⟩
  | @skip cs js k h hk ih =>
    obtain ⟨ca, cb, rfl, hr⟩ := ih hj
    exact ⟨ca, cb ++ [.delete k], by simp, hr⟩

namespace Inst

/-- What a failed growth leaves on disk: `m` calls were saved, the next one was being written. -/
theorem grow_fail {E : Env ι} {S0 : Store} {K : Nat} {cs : List Mutation} {s s' : Inst ι} {o : Order} {skip : Nat} {p : GrowCall}
    (h : DInv E S0 K cs s) (hroom : E.Room (K + cs.length)) (ho : ∀ l, (o l).Perm l)
    (hg : growStep E.codecs s o skip p = some s') (hf : s'.lp.io = .unwinding) :
    ∃ b dup rest m S', s.lp.buf = .write b dup :: rest ∧ s.lp.io = .run ∧ cs[m]? = some b.mutation ∧
      GoodFile E (E.codecs s.idx) (K + cs.length) s.disk (S0.run (cs.take m)) ∧
      GoodFile E (E.codecs s.idx) (K + cs.length) s'.disk S' ∧ s'.idx = s.idx ∧ s'.phase = s.phase ∧ s'.lp.cb.removed = false ∧
      (((s.lp.cb.ws.needTrim || dup) = false ∧ S' = S0.run (cs.take m)) ∨
        ((s.lp.cb.ws.needTrim || dup) = true ∧ (∀ k x, S' k = some x → S0.run (cs.take (m + 1)) k = some x) ∧
          ∃ k x, S0.run (cs.take (m + 1)) k = some x ∧ S' k = none)) := by
  have hne : Nonempty ι := ⟨s.idx⟩
  obtain ⟨hbook, halive, hpage, hkv, hjok, pre, post, K0, content, items, hcs, htr, hw, hK, hdisk⟩ := h
  obtain ⟨cb0, _, hinv⟩ := hbook.inv
  unfold growStep at hg
  split at hg
  · cases hg
  rename_i lp hlp
  cases hg
  simp only [] at hf
  unfold Looper.ioStep at hlp
  split at hlp
  · split at hlp
    · cases hlp; cases hf
    · cases hlp; cases hf
    · split at hlp
      · cases hlp
      · cases hlp; cases hf
  · cases hlp; cases hf
  · rename_i hrun
    split at hlp
    · cases hlp; cases hf
    · rename_i j rest hbuf
      have hnr := not_removed hbook hbuf
      have hjob : s.jobs = s.lp.ran.map (·.2) ++ j :: (rest ++ s.lp.queue ++ s.phase.inflight) := by
        have hsp := hinv.split
        rw [hbook.late, List.append_nil, hbuf] at hsp
        unfold jobs; rw [← hsp]; simp
      cases j with
      | remove =>
        simp only [execJobF] at hlp
        cases hlp
        rw [hrun] at hf
        cases hf
      | write b dup =>
        have hjl : s.lp.ran.length + 1 ≤ s.jobs.length := by rw [hjob]; simp
        obtain ⟨hokb, hlenb⟩ := hjok b dup (by rw [hjob]; simp)
        have hr := hroom.mono (m := K0 + s.lp.ran.length + 1) (by omega)
        obtain ⟨ca, cb, hpost, hca⟩ := htr.mid (ja := s.lp.ran.map (·.2.mutation)) (m := b.mutation)
          (jb := (rest ++ s.lp.queue ++ s.phase.inflight).map Job.mutation)
          (by rw [hjob, List.map_append, List.map_cons, List.map_map]; rfl)
        have hcm : cs = (pre ++ ca) ++ b.mutation :: cb := by rw [hcs, hpost]; simp
        have ht1 : S0.run (cs.take (pre ++ ca).length) = Store.empty.run (mutations items) := by
          rw [hcm, List.take_left' rfl, run_append, hca, hdisk.1 hnr]
        have ht2 : S0.run (cs.take ((pre ++ ca).length + 1)) = (Store.empty.run (mutations items)).apply b.mutation := by
          rw [hcm, show (pre ++ ca) ++ b.mutation :: cb = ((pre ++ ca) ++ [b.mutation]) ++ cb by simp, List.take_left' (by simp; omega), run_snoc, run_append, hca, hdisk.1 hnr]
        have hd : s.disk = s.lp.cb.ws.file := by simp [disk, hnr]
        have hsize : content.length ≤ E.page * (K + cs.length) := by
          have := hw.size
          rw [hpage] at this
          exact Nat.le_trans this (Nat.mul_le_mul_left _ (by omega))
        have hcount := hw.count
        have hgood : GoodFile E (E.codecs s.idx) (K + cs.length) s.disk (S0.run (cs.take (pre ++ ca).length)) := by
          rw [hd, ht1]
          exact .held hw.holds hw.framed hw.bufs (by rw [← hpage]; exact hw.fits) (by omega) hsize hdisk.2
        have hget : cs[(pre ++ ca).length]? = some b.mutation := by rw [hcm]; simp
        have hlb : E.recLen b ≤ s.lp.cb.ws.page := by rw [hpage]; exact hlenb
        have hbound : s.lp.cb.ws.page * (K0 + s.lp.ran.length + 1) + 8 < 2 ^ 64 := by rw [hpage]; exact hr.1
        rcases writeF_cases (E.lawful s.idx) o ho b dup (K0 + s.lp.ran.length) hw hokb hlb hbound hr.2 skip p with h1 | ⟨hnt, h1⟩ | ⟨hnt, t, content', j, h1, h2, h3, h4, h5⟩
        · -- the write was not disturbed, and succeeded
          obtain ⟨t, _, _, hdone, _⟩ := write_done (E.lawful s.idx) o ho b dup (K0 + s.lp.ran.length) hw hokb hlb hbound hr.2
          simp only [execJobF, h1, hdone] at hlp
          cases hlp
          rw [hrun] at hf
          cases hf
        · simp only [execJobF, h1] at hlp
          cases hlp
          refine ⟨b, dup, rest, _, S0.run (cs.take (pre ++ ca).length), hbuf, hrun, hget, hgood, ?_, rfl, rfl, hnr, .inl ⟨hnt, rfl⟩⟩
          simp only [disk, hnr, Bool.false_eq_true, if_false]
          rw [ht1]
          exact .held (growFail_holds hw.holds p) hw.framed hw.bufs (by rw [← hpage]; exact hw.fits) (by omega) hsize hdisk.2
        · simp only [execJobF, h1] at hlp
          cases hlp
          have hwf : MapWF (mapStep (intoMap items).1 (some b)) := (MapWF.intoMap items).mapStep _
          have hview : view (mapStep (intoMap items).1 (some b)) = (Store.empty.run (mutations items)).apply b.mutation := by
            rw [view_mapStep_some, view_intoMap]
          have hmem := fun b' => @mem_snapshot items b b'
          have hsl := snapshot_length items b
          have hss := snapshot_sum (recLen := E.recLen) items b
          generalize mapStep (intoMap items).1 (some b) = mp at *
          have hrun' := run_values mp hwf (o mp.values) (ho _)
          rw [hview] at hrun'
          have hnd : ((o mp.values).map (·.key)).Nodup := by
            have hk1 : mp.values.map (·.key) = mp.map (·.1) := by
              unfold KvMap.values
              rw [List.map_map]
              apply List.map_congr_left
              intro p hp
              exact (hwf.keyed p.1 p.2 hp).1
            exact ((ho mp.values).map (·.key)).nodup_iff.2 (by rw [hk1]; exact hwf.unique)
          have hlive : ∀ b ∈ o mp.values, b.isDeleting = false := by
            intro b hb
            have hb := (ho _).mem_iff.1 hb
            unfold KvMap.values at hb
            obtain ⟨p, hp, rfl⟩ := List.mem_map.1 hb
            exact (hwf.keyed p.1 p.2 hp).2
          have hvl : (o mp.values).length ≤ items.length + 1 := by
            rw [(ho _).length_eq]
            unfold KvMap.values
            rw [List.length_map]; exact hsl
          have hokv : ∀ b' ∈ o mp.values, E.okB b' := by
            intro b' hb'
            have := hmem b' ((ho _).mem_iff.1 hb')
            simp only [List.mem_append, List.mem_singleton] at this
            rcases this with hb'' | hb''
            · exact hw.bufs b' hb''
            · injection hb'' with hb''; subst hb''; exact hokb
          have hsl2 : content'.length ≤ E.page * (K + cs.length) := by
            have hsl3 : sumLen E.recLen ((o mp.values).take j) ≤ sumLen E.recLen (o mp.values) := by
              have h6 : sumLen E.recLen (o mp.values) = sumLen E.recLen ((o mp.values).take j) + sumLen E.recLen ((o mp.values).drop j) := by
                conv => lhs; rw [← List.take_append_drop j (o mp.values)]
                unfold sumLen
                rw [List.map_append, List.sum_append]
              omega
            rcases hw.fits with hf1 | hf1
            · have h6 := sumLen_le E.recLen E.page ((o mp.values).take j) (by
                intro b' hb'
                have := hmem b' ((ho _).mem_iff.1 (List.mem_of_mem_take hb'))
                simp only [List.mem_append, List.mem_singleton] at this
                rcases this with hb'' | hb''
                · rw [← hpage]; exact hf1.2 b' hb''
                · injection hb'' with hb''; subst hb''; exact hlenb)
              rw [h5]
              refine Nat.le_trans h6 (Nat.mul_le_mul_left _ ?_)
              rw [List.length_take]; omega
            · have h7 := hw.size
              rw [hpage] at h7
              have h8 : E.page * (K0 + s.lp.ran.length + 1) ≤ E.page * (K + cs.length) := Nat.mul_le_mul_left _ (by omega)
              rw [Nat.mul_add, Nat.mul_one] at h8
              have h9 := sumLen_perm E.recLen (ho mp.values)
              omega
          refine ⟨b, dup, rest, _, Store.empty.run (mutations (((o mp.values).take j).map some)), hbuf, hrun, hget, hgood, ?_, rfl, rfl, hnr, .inr ⟨hnt, ?_, ?_⟩⟩
          · simp only [disk, hnr, Bool.false_eq_true, if_false]
            refine .held (growFail_holds h3.holds p) h3.framed ?_ (.inr (by rw [recSum_map_some, h5]; exact Nat.le_refl _)) (by simp; omega) hsl2 (by intro hn; obtain ⟨_, _, hx⟩ := List.mem_map.1 hn; cases hx)
            intro b' hb'
            obtain ⟨b'', hb'', he⟩ := List.mem_map.1 hb'
            injection he with he
            subst he
            exact hokv _ (List.mem_of_mem_take hb'')
          · intro k x hx
            rw [ht2, ← hrun', run_puts _ _ hlive hnd]
            rw [run_puts _ _ (fun b hb => hlive b (List.mem_of_mem_take hb)) ((List.take_sublist j _).map _ |>.nodup hnd)] at hx
            have hfa : (o mp.values).find? (fun b => b.key == k) =
                (((o mp.values).take j).find? (fun b => b.key == k)).or (((o mp.values).drop j).find? (fun b => b.key == k)) := by
              rw [← List.find?_append, List.take_append_drop]
            rw [hfa]
            cases hfi : ((o mp.values).take j).find? (fun b => b.key == k) with
            | none => rw [hfi] at hx; cases hx
            | some b => rw [hfi] at hx; exact hx
          · -- the record at which the loop stopped
            obtain ⟨bj, hbj⟩ : ∃ bj, (o mp.values)[j]? = some bj := ⟨_, List.getElem?_eq_getElem h2⟩
            have hsplit : o mp.values = (o mp.values).take j ++ bj :: (o mp.values).drop (j + 1) := by
              have h6 : (o mp.values)[j] = bj := by rw [List.getElem?_eq_getElem h2] at hbj; injection hbj
              rw [← h6, ← List.drop_eq_getElem_cons h2, List.take_append_drop]
            have hnone : ((o mp.values).take j).find? (fun b => b.key == bj.key) = none := by
              rw [List.find?_eq_none]
              intro b' hb' hk
              rw [hsplit, List.map_append, List.nodup_append] at hnd
              exact hnd.2.2 b'.key (List.mem_map_of_mem hb') bj.key (by simp) (by simpa using hk)
            refine ⟨bj.key, bj.entry, ?_, ?_⟩
            · rw [ht2, ← hrun', run_puts _ _ hlive hnd, hsplit, List.find?_append, hnone]
              simp
            · rw [run_puts _ _ (fun b hb => hlive b (List.mem_of_mem_take hb)) ((List.take_sublist j _).map _ |>.nodup hnd), hnone]
              rfl
  · cases hlp; cases hf
  · cases hlp
  · cases hlp

/-- A step in which the failure is not reached is the ordinary step. -/
theorem grow_fine {E : Env ι} {S0 : Store} {K : Nat} {cs : List Mutation} {s s' : Inst ι} {o : Order} {skip : Nat} {p : GrowCall}
    (h : DInv E S0 K cs s) (hroom : E.Room (K + cs.length)) (ho : ∀ l, (o l).Perm l)
    (hg : growStep E.codecs s o skip p = some s') (hf : s'.lp.io ≠ .unwinding) : step E.codecs s (.io o) = some (s', none) := by
  have hne : Nonempty ι := ⟨s.idx⟩
  obtain ⟨hbook, halive, hpage, hkv, hjok, pre, post, K0, content, items, hcs, htr, hw, hK, hdisk⟩ := h
  unfold growStep at hg
  split at hg
  · cases hg
  rename_i lp hlp
  cases hg
  simp only [] at hf
  have : Looper.ioStep (fun o j cb => execJob (E.codecs s.idx) o j cb) o s.lp = some lp := by
    rw [← hlp]
    unfold Looper.ioStep
    cases hio : s.lp.io with
    | run =>
      cases hbuf : s.lp.buf with
      | nil => rfl
      | cons j rest =>
        cases j with
        | remove => rfl
        | write b dup =>
          obtain ⟨cb0, _, hinv⟩ := hbook.inv
          have hjob : s.jobs = s.lp.ran.map (·.2) ++ .write b dup :: (rest ++ s.lp.queue ++ s.phase.inflight) := by
            have hsp := hinv.split
            rw [hbook.late, List.append_nil, hbuf] at hsp
            unfold jobs; rw [← hsp]; simp
          have hjl : s.lp.ran.length + 1 ≤ s.jobs.length := by rw [hjob]; simp
          obtain ⟨hokb, hlenb⟩ := hjok b dup (by rw [hjob]; simp)
          have hr := hroom.mono (m := K0 + s.lp.ran.length + 1) (by omega)
          unfold Looper.ioStep at hlp
          simp only [hio, hbuf] at hlp
          rcases writeF_cases (E.lawful s.idx) o ho b dup (K0 + s.lp.ran.length) hw hokb (by rw [hpage]; exact hlenb) (by rw [hpage]; exact hr.1) hr.2 skip p with h1 | ⟨_, h1⟩ | ⟨_, t, content', j, h1, _⟩
          · simp only [execJobF, execJob, h1]
            cases WState.write (E.codecs s.idx) o b dup s.lp.cb.ws <;> rfl
          · simp only [execJobF, h1] at hlp
            cases hlp
            exact absurd rfl hf
          · simp only [execJobF, h1] at hlp
            cases hlp
            exact absurd rfl hf
    | recv | swap | exited | unwinding | dead => rfl
  simp only [step, this]

/-- After the background thread has died in a growth, only a new `clear_data` can change the file. -/
theorem dead_step {codecs : ι → Codec} {s s' : Inst ι} {e : Ev ι} {r : Option (Out Unit)}
    (hd : s.lp.io = .unwinding ∨ s.lp.io = .dead) (hp : s.phase ≠ .clrOpen) (hc : e ≠ .clear)
    (hs : step codecs s e = some (s', r)) :
    (s'.lp.io = .unwinding ∨ s'.lp.io = .dead) ∧ s'.phase ≠ .clrOpen ∧ s'.lp.cb = s.lp.cb ∧ s'.idx = s.idx := by
  cases e with
  | clear => exact absurd rfl hc
  | put k t bs =>
    simp only [step] at hs
    repeat' split at hs
    all_goals first | (cases hs; done) | (cases hs; exact ⟨hd, by first | exact hp | simp, rfl, rfl⟩)
  | delete k =>
    simp only [step] at hs
    repeat' split at hs
    all_goals first | (cases hs; done) | (cases hs; exact ⟨hd, by first | exact hp | simp, rfl, rfl⟩)
  | drop =>
    simp only [step] at hs
    split at hs
    · cases hs
    · cases hs; exact ⟨hd, by simp, rfl, rfl⟩
  | io o =>
    simp only [step] at hs
    split at hs
    · cases hs
    rename_i lp hlp
    cases hs
    unfold Looper.ioStep at hlp
    rcases hd with h | h
    · simp only [h] at hlp
      cases hlp
      exact ⟨.inr rfl, hp, rfl, rfl⟩
    · simp only [h] at hlp
      cases hlp
  | api i =>
    simp only [step] at hs
    cases hph : s.phase with
    | idle => simp [hph] at hs
    | closed => simp [hph] at hs
    | push j =>
      simp only [hph] at hs
      cases hs
      unfold Looper.push
      split <;> exact ⟨hd, by simp, rfl, rfl⟩
    | send =>
      simp only [hph] at hs
      cases hs
      unfold Looper.send
      split
      · split <;> exact ⟨hd, by simp, rfl, rfl⟩
      · exact ⟨hd, by simp, rfl, rfl⟩
    | clrPush =>
      simp only [hph] at hs
      cases hs
      unfold Looper.push
      split <;> exact ⟨hd, by simp, rfl, rfl⟩
    | clrSend =>
      simp only [hph, Looper.send] at hs
      repeat' split at hs
      all_goals (cases hs; exact ⟨hd, by simp, rfl, rfl⟩)
    | clrQuit =>
      simp only [hph, Looper.quitSend] at hs
      repeat' split at hs
      all_goals (cases hs; exact ⟨hd, by simp, rfl, rfl⟩)
    | clrJoin =>
      simp only [hph] at hs
      split at hs
      · rename_i hex; rcases hd with h | h <;> rw [h] at hex <;> cases hex
      · split at hs
        · cases hs; exact ⟨hd, by simp, rfl, rfl⟩
        · cases hs
    | clrOpen => exact absurd hph hp

theorem dead_run {codecs : ι → Codec} (es : List (Ev ι)) {s s' : Inst ι} {rs : List (Out Unit)}
    (hd : s.lp.io = .unwinding ∨ s.lp.io = .dead) (hp : s.phase ≠ .clrOpen) (hc : ∀ e ∈ es, e ≠ .clear)
    (hs : run codecs s es = some (s', rs)) : s'.lp.cb = s.lp.cb ∧ s'.idx = s.idx := by
  induction es generalizing s rs with
  | nil => cases hs; exact ⟨rfl, rfl⟩
  | cons e es ih =>
    unfold run at hs
    split at hs
    · cases hs
    rename_i s1 r hstep
    split at hs
    · cases hs
    rename_i s2 rs2 hrun
    cases hs
    obtain ⟨h1, h2, h3, h4⟩ := dead_step hd hp (hc e List.mem_cons_self) hstep
    obtain ⟨h5, h6⟩ := ih h1 h2 (fun e he => hc e (List.mem_cons_of_mem _ he)) hrun
    exact ⟨h5.trans h3, h6.trans h4⟩

end Inst
end Mmkv
