import Verif.Lemmas.Framed
/-! The writer keeps the file well-formed and does to it what the mutation says. -/

namespace Mmkv
open Spec

theorem splice_length (f : Bytes) (off : Nat) (bs : Bytes) (h : off + bs.length ≤ f.length) :
    (splice f off bs).length = f.length := by
  simp [splice]; omega

theorem splice_mid (a m t bs : Bytes) (h : bs.length = m.length) :
    splice (a ++ m ++ t) a.length bs = a ++ bs ++ t := by
  unfold splice
  rw [show a ++ m ++ t = a ++ (m ++ t) from List.append_assoc _ _ _, List.take_left' rfl, h, ← List.drop_drop, List.drop_left' rfl, List.drop_left' rfl]

/-- The file holds `content`: length header, content, anything after it. -/
def Holds (file content : Bytes) : Prop :=
  content.length + 8 < 2 ^ 64 ∧ ∃ tail, file = beBytes 8 content.length ++ content ++ tail

theorem Holds.len {file content : Bytes} (h : Holds file content) : content.length + 8 ≤ file.length := by
  obtain ⟨_, t, rfl⟩ := h
  simp; omega

theorem Holds.header {file content : Bytes} (h : Holds file content) : beVal (file.take 8) = content.length := by
  obtain ⟨hb, t, rfl⟩ := h
  rw [List.append_assoc, List.take_left' (beBytes_length 8 _), beVal_beBytes _ _ (by omega)]

theorem Holds.body {file content : Bytes} (h : Holds file content) :
    (file.take (content.length + 8)).drop 8 = content := by
  obtain ⟨hb, t, rfl⟩ := h
  rw [List.take_left' (by simp; omega), List.drop_left' (beBytes_length 8 _)]

theorem Holds.of_header {file : Bytes} (h8 : 8 ≤ file.length) (hle : beVal (file.take 8) + 8 ≤ file.length)
    (hb : beVal (file.take 8) + 8 < 2 ^ 64) :
    Holds file ((file.take (beVal (file.take 8) + 8)).drop 8) := by
  have hlen : ((file.take (beVal (file.take 8) + 8)).drop 8).length = beVal (file.take 8) := by
    simp; omega
  refine ⟨by rw [hlen]; exact hb, file.drop (beVal (file.take 8) + 8), ?_⟩
  rw [hlen]
  have h8' : beBytes 8 (beVal (file.take 8)) = file.take 8 := by
    have hl8 : (file.take 8).length = 8 := by simp; omega
    have := beBytes_beVal (file.take 8)
    rwa [hl8] at this
  rw [h8']
  have e1 : file.take 8 = (file.take (beVal (file.take 8) + 8)).take 8 := by
    rw [List.take_take, Nat.min_eq_left (by omega)]
  have e2 : file.take 8 ++ (file.take (beVal (file.take 8) + 8)).drop 8 = file.take (beVal (file.take 8) + 8) := by
    conv => lhs; lhs; rw [e1]
    exact List.take_append_drop _ _
  rw [e2, List.take_append_drop]

/-- The state of a writer whose file holds whole records. -/
structure Valid (c : Codec) (s : WState) (content : Bytes) (items : List (Option Buffer)) : Prop where
  usz : s.usizeBytes = 8
  mm : s.mmLen = s.file.length
  holds : Holds s.file content
  framed : Framed c 0 content items
  pos : s.position = items.length

variable {c : Codec} {s : WState} {content : Bytes} {items : List (Option Buffer)}

theorem writeOffset_eq (usz : s.usizeBytes = 8) (mm : s.mmLen = s.file.length) (h : Holds s.file content) :
    s.writeOffset = some (content.length + 8) := by
  have hl := h.len
  have hh := h.header
  have hb := h.1
  unfold WState.writeOffset WState.lenOffset
  rw [if_neg (by omega), if_neg (by omega)]
  simp only [hh]
  rw [if_pos hb]

theorem readItems_eq (h : Valid c s content items) : s.readItems c = some items := by
  unfold WState.readItems
  rw [writeOffset_eq h.usz h.mm h.holds]
  have hl := h.holds.len
  simp only []
  rw [show WState.lenOffset = 8 from rfl]
  by_cases h0 : content.length + 8 ≤ 8
  · rw [if_pos h0]
    have : content = [] := List.length_eq_zero_iff.1 (by omega)
    have hf := h.framed
    rw [this] at hf
    have := hf.iter 0 (by simp)
    simpa [iterLoop] using this
  · rw [if_neg h0, if_neg (by have := h.mm; omega)]
    rw [h.holds.body]
    exact h.framed.iter _ (Nat.le_refl _)

/-- The file after an append. -/
def appendFile (file content bytes : Bytes) : Bytes :=
  splice (splice file 0 (beBytes 8 (bytes.length + content.length))) (content.length + 8) bytes

/-- `append` when there is room. -/
theorem append_done (usz : s.usizeBytes = 8) (mm : s.mmLen = s.file.length) (h : Holds s.file content)
    (bytes : Bytes) (hfit : content.length + 8 + bytes.length ≤ s.file.length) :
    s.append bytes = .done { s with
      file := appendFile s.file content bytes,
      log := s.log ++ [.store 0 (beBytes 8 (bytes.length + content.length)),
        .store (content.length + 8) bytes] } := by
  unfold WState.append
  rw [writeOffset_eq usz mm h]
  simp only [WState.lenOffset, Nat.add_sub_cancel]
  unfold WState.storeLen WState.lenOffset
  rw [if_neg (by omega)]
  unfold WState.store
  rw [if_pos (by simp; omega)]
  simp only [Run.andThen_done]
  rw [if_pos (by omega)]
  simp [appendFile]

theorem holds_append {file : Bytes} (h : Holds file content) (bytes : Bytes)
    (hfit : content.length + 8 + bytes.length ≤ file.length)
    (hb : content.length + bytes.length + 8 < 2 ^ 64) :
    Holds (appendFile file content bytes) (content ++ bytes) ∧
      (appendFile file content bytes).length = file.length := by
  obtain ⟨_, t, rfl⟩ := h
  have ht : bytes.length ≤ t.length := by simp at hfit; omega
  have hlen : (appendFile (beBytes 8 content.length ++ content ++ t) content bytes).length =
      (beBytes 8 content.length ++ content ++ t).length := by
    unfold appendFile
    have h1 : (splice (beBytes 8 content.length ++ content ++ t) 0
        (beBytes 8 (bytes.length + content.length))).length = (beBytes 8 content.length ++ content ++ t).length :=
      splice_length _ _ _ (by simp)
    rw [splice_length _ _ _ (by rw [h1]; exact hfit), h1]
  refine ⟨⟨by simp; omega, t.drop bytes.length, ?_⟩, hlen⟩
  unfold appendFile
  have e1 : splice (beBytes 8 content.length ++ content ++ t) 0 (beBytes 8 (bytes.length + content.length)) =
      beBytes 8 (bytes.length + content.length) ++ content ++ t := by
    have := splice_mid [] (beBytes 8 content.length) (content ++ t) (beBytes 8 (bytes.length + content.length))
      (by simp)
    simpa using this
  rw [e1]
  have e2 : beBytes 8 (bytes.length + content.length) ++ content ++ t =
      (beBytes 8 (bytes.length + content.length) ++ content) ++ t.take bytes.length ++ t.drop bytes.length := by
    simp
  have e3 : content.length + 8 = (beBytes 8 (bytes.length + content.length) ++ content).length := by
    simp; omega
  rw [e2, e3, splice_mid _ _ _ _ (by simp; omega)]
  simp [Nat.add_comm]

theorem holds_reset {file : Bytes} (h : Holds file content) : Holds (splice file 0 (beBytes 8 0)) [] ∧
    (splice file 0 (beBytes 8 0)).length = file.length := by
  have hl := h.len
  refine ⟨?_, splice_length _ _ _ (by simp; omega)⟩
  obtain ⟨_, t, rfl⟩ := h
  refine ⟨by simp, content ++ t, ?_⟩
  have := splice_mid [] (beBytes 8 content.length) (content ++ t) (beBytes 8 0) (by simp)
  simpa using this

theorem holds_expand {file : Bytes} (h : Holds file content) (n : Nat) : Holds (file ++ zeros n) content := by
  obtain ⟨hb, t, rfl⟩ := h
  exact ⟨hb, t ++ zeros n, by simp⟩

/-- Settings a write never changes. -/
structure SameConf (s s' : WState) : Prop where
  page : s'.page = s.page
  usz : s'.usizeBytes = s.usizeBytes
  quota : s'.quota = s.quota

theorem SameConf.rfl' {s : WState} : SameConf s s := ⟨rfl, rfl, rfl⟩

theorem SameConf.trans {a b d : WState} (h : SameConf a b) (h' : SameConf b d) : SameConf a d :=
  ⟨h'.page.trans h.page, h'.usz.trans h.usz, h'.quota.trans h.quota⟩

/-- Appending a record at the current position. -/
theorem appendRec_done (h : Valid c s content items) (r : Bytes) (b : Buffer)
    (hf : Framed c items.length r [some b])
    (hfit : content.length + 8 + r.length ≤ s.file.length)
    (hb : content.length + r.length + 8 < 2 ^ 64) :
    ∃ s', ((s.append r).andThen fun s => .done { s with position := s.position + 1 }) = .done s' ∧
      Valid c s' (content ++ r) (items ++ [some b]) ∧ SameConf s s' ∧ s'.file.length = s.file.length ∧
      s'.needTrim = s.needTrim ∧
      s'.log = s.log ++ [.store 0 (beBytes 8 (r.length + content.length)), .store (content.length + 8) r] ∧
      s'.file = appendFile s.file content r := by
  rw [append_done h.usz h.mm h.holds r hfit]
  obtain ⟨hh, hlen⟩ := holds_append h.holds r hfit hb
  refine ⟨_, rfl, ⟨h.usz, ?_, hh, h.framed.append (by simpa using hf), ?_⟩, ⟨rfl, rfl, rfl⟩, hlen, rfl, rfl, rfl⟩
  · simp [h.mm, hlen]
  · simp [h.pos]

theorem expand_done (h : Valid c s content items) (hq : s.quota = none) :
    ∃ s', s.expand = .done s' ∧ Valid c s' content items ∧ SameConf s s' ∧
      s'.file.length = s.file.length + s.page ∧ s'.needTrim = s.needTrim ∧
      s'.log = s.log ++ [.setLen (s.file.length + s.page)] ∧ s'.file = s.file ++ zeros s.page := by
  unfold WState.expand
  simp only [hq, Option.all_none, if_true]
  refine ⟨_, rfl, ⟨h.usz, ?_, holds_expand h.holds _, h.framed, h.pos⟩, ⟨rfl, rfl, by simp [hq]⟩, ?_, rfl, rfl, rfl⟩
  · simp [zeros]
  · simp [zeros]

variable {okB : Buffer → Prop} {posOk : Nat → Prop} {recLen : Buffer → Nat}

/-- Total length of the records of some buffers. -/
def sumLen (recLen : Buffer → Nat) (bs : List Buffer) : Nat := (bs.map recLen).sum

/-- Total length of the decodable records. -/
def recSum (recLen : Buffer → Nat) (items : List (Option Buffer)) : Nat := sumLen recLen (items.filterMap id)

/-- How many of some records, written one after the other from `off`, end beyond `maxLen`. -/
def overflows (recLen : Buffer → Nat) (maxLen : Nat) : Nat → List Buffer → Nat
  | _, [] => 0
  | off, b :: bs => (if off + recLen b > maxLen then 1 else 0) + overflows recLen maxLen (off + recLen b) bs

theorem sumLen_cons (recLen : Buffer → Nat) (b : Buffer) (bs : List Buffer) :
    sumLen recLen (b :: bs) = recLen b + sumLen recLen bs := rfl

theorem sumLen_perm (recLen : Buffer → Nat) {a b : List Buffer} (h : a.Perm b) : sumLen recLen a = sumLen recLen b :=
  (h.map recLen).sum_nat

theorem sumLen_le (recLen : Buffer → Nat) (page : Nat) (bs : List Buffer) (h : ∀ b ∈ bs, recLen b ≤ page) :
    sumLen recLen bs ≤ page * bs.length := by
  induction bs with
  | nil => simp [sumLen]
  | cons b bs ih =>
    have h1 := h b List.mem_cons_self
    have h2 := ih (fun b' hb' => h b' (List.mem_cons_of_mem _ hb'))
    rw [sumLen_cons, List.length_cons, Nat.mul_add]; omega

theorem recSum_append (recLen : Buffer → Nat) (a b : List (Option Buffer)) :
    recSum recLen (a ++ b) = recSum recLen a + recSum recLen b := by
  simp [recSum, sumLen]

theorem recSum_map_some (recLen : Buffer → Nat) (bs : List Buffer) : recSum recLen (bs.map some) = sumLen recLen bs := by
  simp [recSum]

theorem sumLen_erase_le (recLen : Buffer → Nat) (m : KvMap Buffer) (k : String) :
    sumLen recLen (m.erase k).values ≤ sumLen recLen m.values := by
  induction m with
  | nil => simp [KvMap.erase]
  | cons p m ih =>
    simp only [KvMap.erase, KvMap.values, sumLen, List.filter_cons] at ih ⊢
    split <;> simp only [List.map_cons, List.sum_cons] <;> omega

theorem sumLen_mapStep_le (recLen : Buffer → Nat) (m : KvMap Buffer) (ob : Option Buffer) :
    sumLen recLen (mapStep m ob).values ≤ sumLen recLen m.values + recSum recLen [ob] := by
  cases ob with
  | none => simp [mapStep]
  | some b =>
    have h := sumLen_erase_le recLen m b.key
    have h2 : recSum recLen [some b] = recLen b := by simp [recSum, sumLen]
    unfold mapStep
    simp only []
    split
    · omega
    · have : sumLen recLen (m.insert b.key b).values = recLen b + sumLen recLen (m.erase b.key).values := rfl
      omega

theorem sumLen_foldl_le (recLen : Buffer → Nat) (items : List (Option Buffer)) (m : KvMap Buffer) :
    sumLen recLen (items.foldl mapStep m).values ≤ sumLen recLen m.values + recSum recLen items := by
  induction items generalizing m with
  | nil => simp
  | cons ob items ih =>
    have h1 := ih (mapStep m ob)
    have h2 := sumLen_mapStep_le recLen m ob
    have h3 := recSum_append recLen [ob] items
    simp only [List.singleton_append] at h3
    simp only [List.foldl_cons]; omega

/-- The rewrite loop. -/
theorem trimLoop_done (hl : LawfulCodec c okB posOk recLen) (maxLen : Nat) :
    ∀ (bs : List Buffer) (s : WState) (content : Bytes) (items : List (Option Buffer)),
      Valid c s content items → s.quota = none → maxLen ≤ s.file.length →
      (∀ b ∈ bs, okB b) →
      ((∀ b ∈ bs, recLen b ≤ s.page) ∨ content.length + 8 + sumLen recLen bs ≤ maxLen + s.page) →
      content.length + sumLen recLen bs + 8 < 2 ^ 64 →
      posOk (items.length + bs.length) →
      ∃ s' content', WState.trimLoop c maxLen bs s = .done s' ∧
        Valid c s' content' (items ++ bs.map some) ∧ SameConf s s' ∧
        content'.length = content.length + sumLen recLen bs ∧
        s'.needTrim = s.needTrim ∧
        s'.file.length = s.file.length + overflows recLen maxLen (content.length + 8) bs * s.page := by
  intro bs
  induction bs with
  | nil =>
    intro s content items h _ _ _ _ _ _
    exact ⟨s, content, rfl, by simpa using h, .rfl', by simp [sumLen], rfl, by simp [overflows]⟩
  | cons b bs ih =>
    intro s content items h hq hmax hbs hcond hbound hpos
    have hokb := hbs b List.mem_cons_self
    rw [sumLen_cons] at hbound hcond
    simp only [List.length_cons] at hpos
    have hpos' : posOk items.length := hl.posOk_mono _ _ hpos (by omega)
    obtain ⟨r, hr, hrl, hfr⟩ := framed_enc hl b items.length hokb hpos'
    have hoff := writeOffset_eq h.usz h.mm h.holds
    have hle := h.holds.len
    have henc : c.enc b s.position = some r := by rw [h.pos]; exact hr
    unfold WState.trimLoop
    rw [henc]
    simp only [hoff]
    -- the state after the possible expansion
    have hstep : ∃ s1, (if content.length + 8 + r.length > maxLen then s.expand else .done s) = Run.done s1 ∧
        Valid c s1 content items ∧ SameConf s s1 ∧ content.length + 8 + r.length ≤ s1.file.length ∧
        s1.needTrim = s.needTrim ∧ maxLen ≤ s1.file.length ∧
        s1.file.length = s.file.length + (if content.length + 8 + recLen b > maxLen then 1 else 0) * s.page := by
      rw [← hrl]
      by_cases hgt : content.length + 8 + r.length > maxLen
      · rw [if_pos hgt, if_pos hgt]
        obtain ⟨s1, e1, v1, c1, l1, t1, _, _⟩ := expand_done h hq
        refine ⟨s1, e1, v1, c1, ?_, t1, by omega, by simpa using l1⟩
        rcases hcond with hc | hc
        · have := hc b List.mem_cons_self; omega
        · omega
      · rw [if_neg hgt, if_neg hgt]
        exact ⟨s, rfl, h, .rfl', by omega, rfl, hmax, by simp⟩
    obtain ⟨s1, e1, v1, c1, f1, t1, m1, l1⟩ := hstep
    rw [e1]
    simp only [Run.andThen_done]
    obtain ⟨s2, e2, v2, c2, l2, t2, _, _⟩ := appendRec_done v1 r b hfr f1 (by
      omega)
    rw [e2]
    simp only [Run.andThen_done]
    have hpage : s2.page = s.page := c2.page.trans c1.page
    have hcl : (content ++ r).length = content.length + recLen b := by simp [hrl]
    obtain ⟨s3, content3, e3, v3, c3, cl3, t3, l3⟩ := ih s2 (content ++ r) (items ++ [some b]) v2
      (by rw [c2.quota, c1.quota, hq]) (by omega)
      (fun b' hb' => hbs b' (List.mem_cons_of_mem _ hb'))
      (by
        rw [hpage, hcl]
        rcases hcond with hc | hc
        · exact .inl fun b' hb' => hc b' (List.mem_cons_of_mem _ hb')
        · exact .inr (by omega))
      (by rw [hcl]; omega)
      (by have : (items ++ [some b]).length + bs.length = items.length + (bs.length + 1) := by simp; omega
          rw [this]; exact hpos)
    refine ⟨s3, content3, e3, by simpa using v3, (c1.trans c2).trans c3, ?_, by rw [t3, t2, t1], ?_⟩
    · rw [cl3, hcl, sumLen_cons]; omega
    · have e : content.length + recLen b + 8 = content.length + 8 + recLen b := by omega
      rw [l3, l2, l1, hpage, hcl, e, overflows, Nat.add_mul]; omega

/-- What a write does to the records and the size of the file, in each of its three branches. -/
inductive Shape (recLen : Buffer → Nat) (order : List Buffer → List Buffer) (b : Buffer) (dup : Bool)
    (s : WState) (content : Bytes) (items : List (Option Buffer))
    (s' : WState) (content' : Bytes) (items' : List (Option Buffer)) : Prop where
  | append (hfit : content.length + 8 + recLen b ≤ s.file.length)
      (hi : items' = items ++ [some b]) (hc : ∃ r, r.length = recLen b ∧ content' = content ++ r)
      (hl : s'.file.length = s.file.length)
      (ht : s'.needTrim = (s.needTrim || dup))
  | expand (hfull : s.file.length < content.length + 8 + recLen b) (hnt : (s.needTrim || dup) = false)
      (hi : items' = items ++ [some b]) (hc : ∃ r, r.length = recLen b ∧ content' = content ++ r)
      (hl : s'.file.length = s.file.length + s.page)
      (ht : s'.needTrim = false)
  | trim (hfull : s.file.length < content.length + 8 + recLen b) (hnt : (s.needTrim || dup) = true)
      (hi : items' = (order (mapStep (intoMap items).1 (some b)).values).map some)
      (hc : content'.length = sumLen recLen (mapStep (intoMap items).1 (some b)).values)
      (hl : s'.file.length = s.file.length +
        overflows recLen s.file.length 8 (order (mapStep (intoMap items).1 (some b)).values) * s.page)
      (ht : s'.needTrim = false)

/-- The condition under which a write succeeds: either every record involved fits one page, or the records in the file
are as the code itself writes them and the new one fits the free space plus one page. -/
def Fits (recLen : Buffer → Nat) (b : Buffer) (s : WState) (content : Bytes) (items : List (Option Buffer)) : Prop :=
  (∀ b', some b' ∈ items ++ [some b] → recLen b' ≤ s.page) ∨
    (recSum recLen items ≤ content.length ∧ content.length + 8 + recLen b ≤ s.file.length + s.page)

/-- The values a compaction writes were in the file, or are the new one. -/
theorem mem_snapshot {items : List (Option Buffer)} {b b' : Buffer}
    (h : b' ∈ (mapStep (intoMap items).1 (some b)).values) : some b' ∈ items ++ [some b] := by
  unfold KvMap.values at h
  obtain ⟨⟨k, b''⟩, hp, rfl⟩ := List.mem_map.1 h
  have hfold : mapStep (intoMap items).1 (some b) = (items ++ [some b]).foldl mapStep [] := by
    simp [intoMap]
  rw [hfold] at hp
  rcases mem_foldl_mapStep _ _ _ _ hp with h' | h'
  · exact h'
  · simp at h'

theorem snapshot_length (items : List (Option Buffer)) (b : Buffer) :
    (mapStep (intoMap items).1 (some b)).length ≤ items.length + 1 := by
  have h1 := length_mapStep_le (intoMap items).1 (some b)
  have h2 := length_foldl_le items []
  simp only [intoMap, List.length_nil, Nat.zero_add] at h1 h2 ⊢
  omega

theorem snapshot_sum (items : List (Option Buffer)) (b : Buffer) :
    sumLen recLen (mapStep (intoMap items).1 (some b)).values ≤ recSum recLen items + recLen b := by
  have h1 := sumLen_foldl_le recLen items []
  have h2 := sumLen_mapStep_le recLen (intoMap items).1 (some b)
  have h3 : recSum recLen [some b] = recLen b := by simp [recSum, sumLen]
  have h4 : sumLen recLen (KvMap.values ([] : KvMap Buffer)) = 0 := rfl
  simp only [intoMap] at h2 ⊢
  omega

/-- Records of at most a page each. -/
theorem recSum_le {items : List (Option Buffer)} {b : Buffer} {page : Nat}
    (h : ∀ b', some b' ∈ items ++ [some b] → recLen b' ≤ page) : recSum recLen items + recLen b ≤ page * (items.length + 1) := by
  have h1 : recSum recLen (items ++ [some b]) = recSum recLen items + recLen b := by
    rw [recSum_append]; simp [recSum, sumLen]
  have h2 := sumLen_le recLen page ((items ++ [some b]).filterMap id) fun b' hb' => by
    rw [List.mem_filterMap] at hb'
    obtain ⟨ob, hob, rfl⟩ := hb'
    exact h b' hob
  have h3 := List.length_filterMap_le id (items ++ [some b])
  have h4 := Nat.mul_le_mul_left page h3
  simp only [List.length_append, List.length_cons, List.length_nil] at h4
  rw [← h1]
  unfold recSum
  exact Nat.le_trans h2 (by simpa using h4)

/-- **The writer theorem**, one write. -/
theorem write_core (hl : LawfulCodec c okB posOk recLen) (order : List Buffer → List Buffer)
    (ho : ∀ l, (order l).Perm l) (b : Buffer) (dup : Bool)
    (hv : Valid c s content items) (hq : s.quota = none) (hbufs : ∀ b', some b' ∈ items ++ [some b] → okB b')
    (hfits : Fits recLen b s content items)
    (hb1 : content.length + recLen b + 8 < 2 ^ 64)
    (hb2 : (∀ b', some b' ∈ items ++ [some b] → recLen b' ≤ s.page) → recSum recLen items + recLen b + 8 < 2 ^ 64)
    (hpos : posOk (items.length + 1)) :
    ∃ s' content' items', WState.write c order b dup s = .done s' ∧ Valid c s' content' items' ∧ SameConf s s' ∧
      Shape recLen order b dup s content items s' content' items' ∧
      Store.empty.run (mutations items') = (Store.empty.run (mutations items)).apply b.mutation := by
  have hpos' : posOk items.length := hl.posOk_mono _ _ hpos (by omega)
  have hokb := hbufs b (by simp)
  obtain ⟨r, hr, hrl, hfr⟩ := framed_enc hl b items.length hokb hpos'
  have hlen := hv.holds.len
  have hroom : content.length + 8 + recLen b ≤ s.file.length + s.page := by
    rcases hfits with h | h
    · have := h b (by simp); omega
    · exact h.2
  have hrun : Store.empty.run (mutations (items ++ [some b])) =
      (Store.empty.run (mutations items)).apply b.mutation := by
    simp [mutations, Store.run]
  -- the state once the flag is set
  generalize hs0 : (if dup = true then { s with needTrim := true } else s) = s0
  have hfile0 : s0.file = s.file := by rw [← hs0]; split <;> rfl
  have hv0 : Valid c s0 content items := by
    rw [← hs0]; split
    · exact ⟨hv.usz, hv.mm, hv.holds, hv.framed, hv.pos⟩
    · exact hv
  have hconf0 : SameConf s s0 := by rw [← hs0]; split <;> exact ⟨rfl, rfl, rfl⟩
  have htrim0 : s0.needTrim = (s.needTrim || dup) := by
    rw [← hs0]; split
    · rename_i hd; simp [hd]
    · rename_i hd; simp [hd]
  have hq0 : s0.quota = none := by rw [hconf0.quota, hq]
  have henc : c.enc b s.position = some r := by rw [hv.pos]; exact hr
  unfold WState.write
  rw [henc]
  simp only [writeOffset_eq hv.usz hv.mm hv.holds, hs0]
  by_cases hfit : r.length + (content.length + 8) ≤ s.mmLen
  · rw [if_pos hfit]
    rw [hv.mm] at hfit
    obtain ⟨s1, e1, v1, c1, l1, t1, _, _⟩ := appendRec_done hv0 r b hfr (by rw [hfile0]; omega) (by omega)
    exact ⟨s1, _, _, e1, v1, hconf0.trans c1,
      .append (by omega) rfl ⟨r, hrl, rfl⟩ (by rw [l1, hfile0]) (by rw [t1, htrim0]), hrun⟩
  · rw [if_neg hfit]
    rw [hv.mm] at hfit
    cases hnt : s0.needTrim with
    | false =>
      simp only [Bool.false_eq_true, if_false]
      obtain ⟨s1, e1, v1, c1, l1, t1, _, _⟩ := expand_done hv0 hq0
      rw [e1]
      simp only [Run.andThen_done]
      obtain ⟨s2, e2, v2, c2, l2, t2, _, _⟩ := appendRec_done v1 r b hfr
        (by rw [l1, hfile0, hconf0.page]; omega) (by omega)
      have hc := (hconf0.trans c1).trans c2
      exact ⟨s2, _, _, e2, v2, hc, .expand (by omega) (by rw [← htrim0, hnt]) rfl ⟨r, hrl, rfl⟩
        (by rw [l2, l1, hfile0, hconf0.page]) (by rw [t2, t1, hnt]), hrun⟩
    | true =>
      simp only [if_true, readItems_eq hv0]
      -- the snapshot
      have hmemS := fun b' => @mem_snapshot items b b'
      have hmlen := snapshot_length items b
      have hmsum := snapshot_sum (recLen := recLen) items b
      have hmwf : MapWF (mapStep (intoMap items).1 (some b)) := (MapWF.intoMap items).mapStep _
      have hview : view (mapStep (intoMap items).1 (some b)) = (Store.empty.run (mutations items)).apply b.mutation := by
        rw [view_mapStep_some, view_intoMap]
      generalize hm : mapStep (intoMap items).1 (some b) = m at *
      have hmem : ∀ b' ∈ order m.values, some b' ∈ items ++ [some b] :=
        fun b' hb' => hmemS b' ((ho _).mem_iff.1 hb')
      have hvlen : (order m.values).length = m.length := by
        rw [(ho _).length_eq]; simp [KvMap.values]
      have hvsum : sumLen recLen (order m.values) = sumLen recLen m.values := sumLen_perm _ (ho _)
      -- reset
      obtain ⟨hr1, hr2⟩ := holds_reset hv0.holds
      have hr3 : (splice s0.file 0 (beBytes 8 0)).length = s.file.length := by rw [hr2, hfile0]
      have hreset : s0.reset = .done { s0 with
          file := splice s0.file 0 (beBytes 8 0), log := s0.log ++ [.store 0 (beBytes 8 0)] } := by
        unfold WState.reset WState.storeLen WState.lenOffset
        rw [if_neg (by have := hv0.usz; omega)]
        unfold WState.store
        rw [if_pos (by have := hv0.mm; have := hv0.holds.len; simp; omega)]
      rw [hreset]
      simp only [Run.andThen_done]
      have hv1 : Valid c { s0 with
          file := splice s0.file 0 (beBytes 8 0), log := s0.log ++ [.store 0 (beBytes 8 0)], position := 0 } [] [] :=
        ⟨hv0.usz, by simp [hv0.mm, hr2], hr1, .nil _, rfl⟩
      have hcond : (∀ b' ∈ order m.values, recLen b' ≤ s0.page) ∨
          ([] : Bytes).length + 8 + sumLen recLen (order m.values) ≤ s.mmLen + s0.page := by
        rw [hconf0.page, hvsum, hv.mm]
        rcases hfits with h | h
        · exact .inl fun b' hb' => h b' (hmem b' hb')
        · exact .inr (by simp only [List.length_nil]; omega)
      have hbnd : ([] : Bytes).length + sumLen recLen (order m.values) + 8 < 2 ^ 64 := by
        rw [hvsum]
        rcases hfits with h | h
        · have h3 := hb2 h
          simp only [List.length_nil]; omega
        · simp only [List.length_nil]; omega
      obtain ⟨s2, content2, e2, v2, c2, cl2, t2, l2⟩ := trimLoop_done hl s.mmLen (order m.values) _ [] []
        hv1 hq0 (by simp only [hr3, hv.mm]; exact Nat.le_refl _)
        (fun b' hb' => hbufs b' (hmem b' hb')) hcond hbnd
        (hl.posOk_mono _ _ hpos (by simp; omega))
      rw [e2]
      simp only [Run.andThen_done]
      have hc : SameConf s s2 := ⟨c2.page.trans hconf0.page, c2.usz.trans hconf0.usz, c2.quota.trans hconf0.quota⟩
      refine ⟨_, content2, (order m.values).map some, rfl, ⟨v2.usz, v2.mm, v2.holds, by simpa using v2.framed,
        by simpa using v2.pos⟩, ⟨hc.page, hc.usz, hc.quota⟩, ?_, ?_⟩
      · refine .trim (by omega) (by rw [← htrim0, hnt]) (by rw [hm]) ?_ ?_ rfl
        · rw [hm, cl2, hvsum]; simp
        · simp only [hr3, hconf0.page, List.length_nil, Nat.zero_add, hv.mm] at l2
          rw [hm]; exact l2
      · rw [run_values m hmwf _ (ho _), hview]

/-- Invariant of a writer over a history of at most `K` records; `foreign`: the file may have been written by other
means than this code. -/
structure WInv (c : Codec) (okB : Buffer → Prop) (recLen : Buffer → Nat) (foreign : Prop) (K : Nat)
    (s : WState) (content : Bytes) (items : List (Option Buffer)) : Prop extends Valid c s content items where
  quota : s.quota = none
  bufs : ∀ b, some b ∈ items → okB b
  fits : (foreign ∧ ∀ b, some b ∈ items → recLen b ≤ s.page) ∨ recSum recLen items ≤ content.length
  count : items.length ≤ K
  size : content.length ≤ s.page * K

/-- **The writer theorem** for a history of records of at most a page. -/
theorem write_done (hl : LawfulCodec c okB posOk recLen) (order : List Buffer → List Buffer)
    (ho : ∀ l, (order l).Perm l) (b : Buffer) (dup : Bool) {foreign : Prop} (K : Nat)
    (h : WInv c okB recLen foreign K s content items)
    (hokb : okB b) (hlenb : recLen b ≤ s.page) (hbound : s.page * (K + 1) + 8 < 2 ^ 64) (hpos : posOk (K + 1)) :
    ∃ s' content' items', WState.write c order b dup s = .done s' ∧
      WInv c okB recLen foreign (K + 1) s' content' items' ∧ SameConf s s' ∧
      Shape recLen order b dup s content items s' content' items' ∧
      Store.empty.run (mutations items') = (Store.empty.run (mutations items)).apply b.mutation := by
  have hmul : s.page * (K + 1) = s.page * K + s.page := by simp [Nat.mul_add]
  have hcount := h.count
  have hsize := h.size
  have hlen := h.holds.len
  have hbufs : ∀ b', some b' ∈ items ++ [some b] → okB b' := by
    intro b' hb'
    rcases List.mem_append.1 hb' with hb' | hb'
    · exact h.bufs b' hb'
    · simp at hb'; subst hb'; exact hokb
  have hall : (∀ b', some b' ∈ items → recLen b' ≤ s.page) → ∀ b', some b' ∈ items ++ [some b] → recLen b' ≤ s.page := by
    intro ha b' hb'
    rcases List.mem_append.1 hb' with hb' | hb'
    · exact ha b' hb'
    · simp at hb'; subst hb'; exact hlenb
  have hfits : Fits recLen b s content items := by
    rcases h.fits with hf | hf
    · exact .inl (hall hf.2)
    · exact .inr ⟨hf, by omega⟩
  have hK : s.page * (items.length + 1) ≤ s.page * (K + 1) := Nat.mul_le_mul_left _ (by omega)
  obtain ⟨s', content', items', hw, hv', hc, hshape, hmut⟩ := write_core hl order ho b dup h.toValid h.quota hbufs hfits
    (by omega) (fun ha => by have := recSum_le ha; omega) (hl.posOk_mono _ _ hpos (by omega))
  have happ : ∀ r : Bytes, r.length = recLen b →
      ((foreign ∧ ∀ b', some b' ∈ items ++ [some b] → recLen b' ≤ s.page) ∨ recSum recLen (items ++ [some b]) ≤ (content ++ r).length) := by
    intro r hr
    rcases h.fits with hf | hf
    · exact .inl ⟨hf.1, hall hf.2⟩
    · right
      have h3 : recSum recLen [some b] = recLen b := by simp [recSum, sumLen]
      rw [recSum_append, h3, List.length_append]; omega
  refine ⟨s', content', items', hw, ⟨hv', by rw [hc.quota, h.quota], ?_, ?_, ?_, ?_⟩, hc, hshape, hmut⟩
  · intro b' hb'
    cases hshape with
    | append _ hi => rw [hi] at hb'; exact hbufs b' hb'
    | expand _ _ hi => rw [hi] at hb'; exact hbufs b' hb'
    | trim _ _ hi =>
      rw [hi] at hb'
      obtain ⟨b'', hb'', e⟩ := List.mem_map.1 hb'
      injection e with e; subst e
      exact hbufs _ (mem_snapshot ((ho _).mem_iff.1 hb''))
  · rw [hc.page]
    cases hshape with
    | append _ hi hc => obtain ⟨r, hr, rfl⟩ := hc; rw [hi]; exact happ r hr
    | expand _ _ hi hc => obtain ⟨r, hr, rfl⟩ := hc; rw [hi]; exact happ r hr
    | trim _ _ hi hc =>
      right
      rw [hi, recSum_map_some, sumLen_perm _ (ho _), hc]
      exact Nat.le_refl _
  · cases hshape with
    | append _ hi => rw [hi]; simp; omega
    | expand _ _ hi => rw [hi]; simp; omega
    | trim _ _ hi =>
      have := snapshot_length items b
      rw [hi, List.length_map, (ho _).length_eq]; simp [KvMap.values]; omega
  · rw [hc.page]
    cases hshape with
    | append _ hi hc => obtain ⟨r, hr, rfl⟩ := hc; rw [List.length_append]; omega
    | expand _ _ hi hc => obtain ⟨r, hr, rfl⟩ := hc; rw [List.length_append]; omega
    | trim _ _ hi hc =>
      rw [hc]
      rcases h.fits with hf | hf
      · have h1 := sumLen_le recLen s.page (mapStep (intoMap items).1 (some b)).values
          fun b' hb' => hall hf.2 b' (mem_snapshot hb')
        have h2 := Nat.mul_le_mul_left s.page (snapshot_length items b)
        simp only [KvMap.values, List.length_map] at h1 ⊢
        omega
      · have := snapshot_sum (recLen := recLen) items b
        omega

end Mmkv
