import Verif.Model.Crash
import Verif.Lemmas.Fatal
/-! The ghost log of a write is what happened to the file, and what a death in the middle can leave. -/

namespace Mmkv
open Spec
variable {c : Codec}

/-- `s'` is `s` after the effects its log has gained. -/
def Logged (s s' : WState) : Prop := ∃ es, s'.log = s.log ++ es ∧ es.foldl Eff.apply s.file = s'.file ∧ (s.mmLen = s.file.length → s'.mmLen = s'.file.length)

theorem Logged.rfl' (s : WState) : Logged s s := ⟨[], by simp, rfl, id⟩

theorem Logged.trans {a b d : WState} (h : Logged a b) (h' : Logged b d) : Logged a d := by
  obtain ⟨e1, h1, h2, h3⟩ := h
  obtain ⟨e2, h4, h5, h6⟩ := h'
  exact ⟨e1 ++ e2, by rw [h4, h1, List.append_assoc], by rw [List.foldl_append, h2, h5], fun h => h6 (h3 h)⟩

theorem logged_andThen {s : WState} {r : Run WState} {f : WState → Run WState} (hr : Logged s r.state)
    (hf : ∀ s1, Logged s1 (f s1).state) : Logged s (r.andThen f).state := by
  cases r with
  | panic s1 => exact hr
  | done s1 => exact hr.trans (hf s1)

theorem logged_store (s : WState) (off : Nat) (bs : Bytes) : Logged s (s.store off bs).state := by
  unfold WState.store
  split
  · rename_i h
    exact ⟨[.store off bs], rfl, rfl, fun hm => by
      simp only [Run.state_done]; rw [splice_length _ _ _ (by omega)]; exact hm⟩
  · exact .rfl' s

theorem logged_storeLen (s : WState) (n : Nat) : Logged s (s.storeLen n).state := by
  unfold WState.storeLen
  split
  · exact .rfl' s
  · exact logged_store s _ _

theorem logged_append (s : WState) (v : Bytes) : Logged s (s.append v).state := by
  unfold WState.append
  split
  · exact .rfl' s
  · exact logged_andThen (logged_storeLen s _) fun s1 => logged_store s1 _ _

theorem logged_expand (s : WState) : Logged s s.expand.state := by
  unfold WState.expand
  simp only []
  split
  · refine ⟨[.setLen (s.file.length + s.page)], rfl, ?_, fun _ => by simp [zeros]⟩
    simp only [List.foldl_cons, List.foldl_nil, Eff.apply, Run.state_done]
    rw [List.take_of_length_le (by omega), Nat.add_sub_cancel_left]
  · exact .rfl' s

theorem logged_same (s s' : WState) (h1 : s'.log = s.log) (h2 : s'.file = s.file) (h3 : s'.mmLen = s.mmLen) : Logged s s' :=
  ⟨[], by simp [h1], h2.symm, fun h => by rw [h2, h3, h]⟩

theorem logged_trimLoop (maxLen : Nat) : ∀ (bs : List Buffer) (s : WState), Logged s (WState.trimLoop c maxLen bs s).state
  | [], s => .rfl' s
  | b :: rest, s => by
    unfold WState.trimLoop
    split
    · exact .rfl' s
    split
    · exact .rfl' s
    refine logged_andThen (logged_andThen (logged_andThen ?_ fun s1 => logged_append s1 _) fun s1 => logged_same _ _ rfl rfl rfl)
      fun s1 => logged_trimLoop maxLen rest s1
    split
    · exact logged_expand s
    · exact .rfl' s

/-- Every write, whatever its outcome: the effects, applied in order, turn the file before into the file after. -/
theorem logged_write (order : List Buffer → List Buffer) (b : Buffer) (dup : Bool) (s : WState) :
    Logged s (s.write c order b dup).state := by
  unfold WState.write
  split
  · exact .rfl' s
  split
  · exact .rfl' s
  simp only []
  generalize hs0 : (if dup = true then { s with needTrim := true } else s) = s0
  have h0 : Logged s s0 := by
    rw [← hs0]; split
    · exact logged_same _ _ rfl rfl rfl
    · exact .rfl' s
  split
  · exact h0.trans (logged_andThen (logged_append s0 _) fun s1 => logged_same _ _ rfl rfl rfl)
  split
  · split
    · exact h0
    · refine h0.trans (logged_andThen (logged_andThen (logged_storeLen s0 0) fun s1 => ?_) fun s1 => logged_same _ _ rfl rfl rfl)
      exact (logged_same s1 { s1 with position := 0 } rfl rfl rfl).trans (logged_trimLoop _ _ _)
  · exact h0.trans (logged_andThen (logged_andThen (logged_expand s0) fun s1 => logged_append s1 _) fun s1 => logged_same _ _ rfl rfl rfl)

theorem effects_log (order : List Buffer → List Buffer) (b : Buffer) (dup : Bool) (s : WState) :
    (s.write c order b dup).state.log = s.log ++ s.effects c order b dup := by
  obtain ⟨es, h, _⟩ := logged_write (c := c) order b dup s
  unfold WState.effects
  rw [h, List.drop_left' rfl]

theorem effects_apply (order : List Buffer → List Buffer) (b : Buffer) (dup : Bool) (s : WState) :
    (s.effects c order b dup).foldl Eff.apply s.file = (s.write c order b dup).state.file := by
  obtain ⟨es, h, h2, _⟩ := logged_write (c := c) order b dup s
  unfold WState.effects
  rw [h, List.drop_left' rfl, h2]

/-- Dying between two effects. -/
theorem Crash.boundary : ∀ (effs : List Eff) (file : Bytes) (k : Nat), Crash file effs ((effs.take k).foldl Eff.apply file)
  | _, file, 0 => .here file _
  | [], file, k + 1 => .here file _
  | e :: rest, file, k + 1 => .later _ _ _ _ (by simpa using Crash.boundary rest (e.apply file) k)

/-- The state in which `write` chooses its branch. -/
theorem write_flag (dup : Bool) (s : WState) : ∃ s0, (if dup = true then { s with needTrim := true } else s) = s0 ∧
    s0.file = s.file ∧ s0.log = s.log ∧ s0.mmLen = s.mmLen ∧ s0.usizeBytes = s.usizeBytes ∧ s0.position = s.position ∧
    s0.quota = s.quota ∧ s0.page = s.page ∧ s0.needTrim = (s.needTrim || dup) := by
  refine ⟨_, rfl, ?_⟩
  cases dup <;> simp

variable {s : WState} {content : Bytes} {items : List (Option Buffer)}
variable {okB : Buffer → Prop} {posOk : Nat → Prop} {recLen : Buffer → Nat}

theorem valid_flag {s0 : WState} (hv : Valid c s content items) (h1 : s0.file = s.file) (h2 : s0.mmLen = s.mmLen)
    (h3 : s0.usizeBytes = s.usizeBytes) (h4 : s0.position = s.position) : Valid c s0 content items :=
  ⟨by rw [h3, hv.usz], by rw [h2, h1, hv.mm], by rw [h1]; exact hv.holds, hv.framed, by rw [h4, hv.pos]⟩

/-- The effects of an append that fits. -/
theorem effects_fit (order : List Buffer → List Buffer) (b : Buffer) (dup : Bool) (hv : Valid c s content items)
    {r : Bytes} (henc : c.enc b items.length = some r) (hfit : content.length + 8 + r.length ≤ s.file.length) :
    s.effects c order b dup = [.store 0 (beBytes 8 (r.length + content.length)), .store (content.length + 8) r] := by
  obtain ⟨s0, hs0, f1, f2, f3, f4, f5, _⟩ := write_flag dup s
  have hv0 := valid_flag hv f1 f3 f4 f5
  unfold WState.effects WState.write
  rw [show c.enc b s.position = some r by rw [hv.pos]; exact henc]
  simp only [writeOffset_eq hv.usz hv.mm hv.holds, hs0]
  rw [if_pos (by rw [hv.mm]; omega), append_done hv0.usz hv0.mm hv0.holds r (by rw [f1]; exact hfit)]
  simp only [Run.andThen_done, Run.state_done, f2]
  rw [List.drop_left' rfl]

/-- The effects of an append that needs one more page and has it. -/
theorem effects_expand (order : List Buffer → List Buffer) (b : Buffer) (dup : Bool) (hv : Valid c s content items)
    (hq : s.quota = none) (hnt : (s.needTrim || dup) = false)
    {r : Bytes} (henc : c.enc b items.length = some r) (hfull : s.file.length < content.length + 8 + r.length)
    (hfit : content.length + 8 + r.length ≤ s.file.length + s.page) :
    s.effects c order b dup = [.setLen (s.file.length + s.page), .store 0 (beBytes 8 (r.length + content.length)), .store (content.length + 8) r] := by
  obtain ⟨s0, hs0, f1, f2, f3, f4, f5, f6, f7, f8⟩ := write_flag dup s
  have hv0 := valid_flag hv f1 f3 f4 f5
  unfold WState.effects WState.write
  rw [show c.enc b s.position = some r by rw [hv.pos]; exact henc]
  simp only [writeOffset_eq hv.usz hv.mm hv.holds, hs0]
  rw [if_neg (by rw [hv.mm]; omega), if_neg (by rw [f8, hnt]; decide)]
  obtain ⟨s1, e1, v1, c1, l1, t1, g1, _⟩ := expand_done hv0 (by rw [f6, hq])
  rw [e1]
  simp only [Run.andThen_done]
  rw [append_done v1.usz v1.mm v1.holds r (by rw [l1, f1, f7]; exact hfit)]
  simp only [Run.andThen_done, Run.state_done, g1, f2, f1, f7]
  simp

/-- The first effect of a compaction is to declare the file empty. -/
theorem effects_trim (order : List Buffer → List Buffer) (b : Buffer) (dup : Bool) (hv : Valid c s content items)
    (hnt : (s.needTrim || dup) = true) {r : Bytes} (henc : c.enc b items.length = some r)
    (hfull : s.file.length < content.length + 8 + r.length) :
    ∃ s1, s1.file = splice s.file 0 (beBytes 8 0) ∧ s1.log = s.log ++ [.store 0 (beBytes 8 0)] ∧ Valid c s1 [] [] ∧
      s1.quota = s.quota ∧ s1.page = s.page ∧
      s.write c order b dup = (WState.trimLoop c s.mmLen (order (mapStep (intoMap items).1 (some b)).values) s1).andThen
        fun s => .done { s with needTrim := false } := by
  obtain ⟨s0, hs0, f1, f2, f3, f4, f5, f6, f7, f8⟩ := write_flag dup s
  have hv0 := valid_flag hv f1 f3 f4 f5
  have hreset : s0.reset = .done { s0 with
      file := splice s0.file 0 (beBytes 8 0), log := s0.log ++ [.store 0 (beBytes 8 0)] } := by
    unfold WState.reset WState.storeLen WState.lenOffset
    rw [if_neg (by have := hv0.usz; omega)]
    unfold WState.store
    rw [if_pos (by have := hv0.mm; have := hv0.holds.len; simp; omega)]
  obtain ⟨hr1, hr2⟩ := holds_reset hv0.holds
  refine ⟨{ s0 with file := splice s0.file 0 (beBytes 8 0), log := s0.log ++ [.store 0 (beBytes 8 0)], position := 0 },
    by simp [f1], by simp [f2], ⟨hv0.usz, by simp [hv0.mm, hr2], hr1, .nil _, rfl⟩, f6, f7, ?_⟩
  unfold WState.write
  rw [show c.enc b s.position = some r by rw [hv.pos]; exact henc]
  simp only [writeOffset_eq hv.usz hv.mm hv.holds, hs0]
  rw [if_neg (by rw [hv.mm]; omega), if_pos (by rw [f8, hnt])]
  simp only [readItems_eq hv0, hreset, Run.andThen_done]

/-- The next effect is the store of a record (rather than of the length header, or a resize). -/
def dataNext (es : List Eff) (k : Nat) : Bool :=
  match es[k]? with
  | some (.store (_ + 1) _) => true
  | _ => false

/-- The rewrite loop, seen between any two effects that are not a header and its record. -/
theorem trimLoop_crash (hl : LawfulCodec c okB posOk recLen) (maxLen : Nat) :
    ∀ (bs : List Buffer) (s s' : WState) (content : Bytes) (items : List (Option Buffer)),
      Valid c s content items → s.quota = none → (∀ b ∈ bs, okB b) →
      content.length + sumLen recLen bs + 8 < 2 ^ 64 → posOk (items.length + bs.length) →
      WState.trimLoop c maxLen bs s = .done s' →
      ∃ es, s'.log = s.log ++ es ∧ ∀ k ≤ es.length, dataNext es k = false →
        ∃ j content', j ≤ bs.length ∧ Holds ((es.take k).foldl Eff.apply s.file) content' ∧
          Framed c 0 content' (items ++ (bs.take j).map some) := by
  intro bs
  induction bs with
  | nil =>
    intro s s' content items h _ _ _ _ hd
    injection hd with hd
    subst hd
    refine ⟨[], by simp, fun k hk _ => ⟨0, content, by simp, ?_, by simpa using h.framed⟩⟩
    simpa using h.holds
  | cons b bs ih =>
    intro s s' content items h hq hbs hbound hpos hd
    have hokb := hbs b List.mem_cons_self
    rw [sumLen_cons] at hbound
    simp only [List.length_cons] at hpos
    have hpos' : posOk items.length := hl.posOk_mono _ _ hpos (by omega)
    obtain ⟨r, hr, hrl, hfr⟩ := framed_enc hl b items.length hokb hpos'
    have hoff := writeOffset_eq h.usz h.mm h.holds
    have henc : c.enc b s.position = some r := by rw [h.pos]; exact hr
    unfold WState.trimLoop at hd
    rw [henc] at hd
    simp only [hoff] at hd
    have hstep : ∃ s1 e1, (if content.length + 8 + r.length > maxLen then s.expand else .done s) = Run.done s1 ∧
        Valid c s1 content items ∧ SameConf s s1 ∧ s1.log = s.log ++ e1 ∧ e1.foldl Eff.apply s.file = s1.file ∧
        (e1 = [] ∨ ∃ n, e1 = [.setLen n]) := by
      by_cases hgt : content.length + 8 + r.length > maxLen
      · rw [if_pos hgt]
        obtain ⟨s1, e1, v1, c1, l1, t1, g1, k1⟩ := expand_done h hq
        refine ⟨s1, _, e1, v1, c1, g1, ?_, .inr ⟨_, rfl⟩⟩
        simp only [List.foldl_cons, List.foldl_nil, Eff.apply, k1]
        rw [List.take_of_length_le (by omega), Nat.add_sub_cancel_left]
      · rw [if_neg hgt]
        exact ⟨s, [], rfl, h, .rfl', by simp, rfl, .inl rfl⟩
    obtain ⟨s1, e1, q1, v1, c1, g1, a1, z1⟩ := hstep
    rw [q1] at hd
    simp only [Run.andThen_done] at hd
    by_cases f1 : content.length + 8 + r.length ≤ s1.file.length
    rotate_left
    · obtain ⟨s2, e2, b2⟩ := append_bad v1.usz v1.mm v1.holds r (by omega) (by omega)
      rw [e2] at hd
      cases hd
    obtain ⟨s2, e2, v2, c2, l2, t2, g2, k2⟩ := appendRec_done v1 r b hfr f1 (by omega)
    rw [e2] at hd
    simp only [Run.andThen_done] at hd
    have hcl : (content ++ r).length = content.length + recLen b := by simp [hrl]
    obtain ⟨es, hes, hcr⟩ := ih s2 s' (content ++ r) (items ++ [some b]) v2
      (by rw [c2.quota, c1.quota, hq])
      (fun b' hb' => hbs b' (List.mem_cons_of_mem _ hb'))
      (by rw [hcl]; omega)
      (by have : (items ++ [some b]).length + bs.length = items.length + (bs.length + 1) := by simp; omega
          rw [this]; exact hpos) hd
    have hzero : ∃ j content', j ≤ (b :: bs).length ∧ Holds s.file content' ∧ Framed c 0 content' (items ++ ((b :: bs).take j).map some) :=
      ⟨0, content, by simp, h.holds, by simpa using h.framed⟩
    have hone : ∃ j content', j ≤ (b :: bs).length ∧ Holds s1.file content' ∧ Framed c 0 content' (items ++ ((b :: bs).take j).map some) :=
      ⟨0, content, by simp, v1.holds, by simpa using v1.framed⟩
    have hrest : ∀ k ≤ es.length, dataNext es k = false →
        ∃ j content', j ≤ (b :: bs).length ∧ Holds ((es.take k).foldl Eff.apply s2.file) content' ∧
          Framed c 0 content' (items ++ ((b :: bs).take j).map some) := by
      intro k hk hdn
      obtain ⟨j, content', hj, hh, hf⟩ := hcr k hk hdn
      exact ⟨j + 1, content', by simp; omega, hh, by simpa using hf⟩
    have hfile2 : s2.file = splice (splice s1.file 0 (beBytes 8 (r.length + content.length))) (content.length + 8) r := k2
    -- the effects: a possible expansion, header, record, the rest
    refine ⟨e1 ++ (.store 0 (beBytes 8 (r.length + content.length)) :: .store (content.length + 8) r :: es), ?_, ?_⟩
    · rw [hes, g2, g1]; simp
    intro k hk hdn
    have htail : ∀ k' ≤ es.length + 2, dataNext (.store 0 (beBytes 8 (r.length + content.length)) :: .store (content.length + 8) r :: es) k' = false →
        ∃ j content', j ≤ (b :: bs).length ∧
          Holds (((.store 0 (beBytes 8 (r.length + content.length)) :: .store (content.length + 8) r :: es).take k').foldl Eff.apply s1.file) content' ∧
          Framed c 0 content' (items ++ ((b :: bs).take j).map some) := by
      intro k' hk' hdn'
      match k' with
      | 0 => exact hone
      | 1 => simp [dataNext] at hdn'
      | k'' + 2 =>
        have := hrest k'' (by omega) (by simpa [dataNext] using hdn')
        rw [hfile2] at this
        simpa [Eff.apply] using this
    rcases z1 with rfl | ⟨n, rfl⟩
    · simp only [List.foldl_nil] at a1
      rw [a1]
      have := htail k (by simpa using hk) (by simpa using hdn)
      simpa using this
    · match k with
      | 0 => exact hzero
      | k' + 1 =>
        simp only [List.foldl_cons, List.foldl_nil] at a1
        have := htail k' (by simpa using hk) (by simpa [dataNext] using hdn)
        rw [← a1] at this
        simpa using this

end Mmkv
