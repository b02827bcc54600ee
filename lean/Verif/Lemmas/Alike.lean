import Verif.SpecAlike
import Verif.Lemmas.Session
import Verif.Lemmas.Crash
import Verif.Lemmas.Bounded
/-! Two stores on which the same happens, up to the contents of keys and values, look the same from outside. -/

namespace Mmkv
open Spec
variable {ι : Type} {ρ : String → String}

namespace Pairwise2
variable {α β γ δ : Type} {R : α → β → Prop} {Q : γ → δ → Prop}

theorem append {l1 l2 : List α} {l1' l2' : List β} (h : Pairwise2 R l1 l1') (h' : Pairwise2 R l2 l2') : Pairwise2 R (l1 ++ l2) (l1' ++ l2') := by
  induction h with
  | nil => exact h'
  | cons hab _ ih => exact .cons hab ih

theorem single {a : α} {b : β} (h : R a b) : Pairwise2 R [a] [b] := .cons h .nil

theorem length_eq {l : List α} {l' : List β} (h : Pairwise2 R l l') : l.length = l'.length := by
  induction h with
  | nil => rfl
  | cons _ _ ih => simp [ih]

theorem map {l : List α} {l' : List β} {f : α → γ} {g : β → δ} (h : Pairwise2 R l l') (hf : ∀ a b, R a b → Q (f a) (g b)) :
    Pairwise2 Q (l.map f) (l'.map g) := by
  induction h with
  | nil => exact .nil
  | cons hab _ ih => exact .cons (hf _ _ hab) ih

theorem imp {R' : α → β → Prop} {l : List α} {l' : List β} (h : Pairwise2 R l l') (hi : ∀ a ∈ l, ∀ b ∈ l', R a b → R' a b) : Pairwise2 R' l l' := by
  induction h with
  | nil => exact .nil
  | cons hab _ ih =>
    exact .cons (hi _ List.mem_cons_self _ List.mem_cons_self hab)
      (ih fun a ha b hb => hi a (List.mem_cons_of_mem _ ha) b (List.mem_cons_of_mem _ hb))

theorem filter {l : List α} {l' : List β} {p : α → Bool} {q : β → Bool} (h : Pairwise2 R l l') (hp : ∀ a b, R a b → p a = q b) :
    Pairwise2 R (l.filter p) (l'.filter q) := by
  induction h with
  | nil => exact .nil
  | @cons a b l l' hab _ ih =>
    rw [List.filter_cons, List.filter_cons, hp a b hab]
    split
    · exact .cons hab ih
    · exact ih

end Pairwise2

/-- Entries of two maps. -/
def PairR (ρ : String → String) (p p' : String × Buffer) : Prop := p'.1 = ρ p.1 ∧ Similar ρ p.2 p'.2

/-- Records of two files. -/
inductive OptR (ρ : String → String) : Option Buffer → Option Buffer → Prop
  | none : OptR ρ none none
  | some {b b'} (h : Similar ρ b b') : OptR ρ (some b) (some b')

/-- Two maps with corresponding entries. -/
abbrev MapR (ρ : String → String) (m m' : KvMap Buffer) : Prop := Pairwise2 (PairR ρ) m m'

theorem key_eq (hρ : Renames ρ) (a k : String) : (ρ a == ρ k) = (a == k) := by
  rw [Bool.eq_iff_iff, beq_iff_eq, beq_iff_eq]
  exact ⟨hρ.inj a k, fun h => by rw [h]⟩

theorem MapR.get (hρ : Renames ρ) {m m' : KvMap Buffer} (h : MapR ρ m m') (k : String) : (m.get k).isSome = (m'.get (ρ k)).isSome := by
  unfold KvMap.get
  rw [Option.isSome_map, Option.isSome_map]
  induction h with
  | nil => rfl
  | @cons p p' l l' hp _ ih =>
    rw [List.find?_cons, List.find?_cons]
    simp only [hp.1, key_eq hρ]
    split
    · rfl
    · exact ih

theorem MapR.erase (hρ : Renames ρ) {m m' : KvMap Buffer} (h : MapR ρ m m') (k : String) : MapR ρ (m.erase k) (m'.erase (ρ k)) := by
  unfold KvMap.erase
  refine Pairwise2.filter h ?_
  rintro p p' ⟨h1, _⟩
  simp only [bne, h1, key_eq hρ]

theorem MapR.insert (hρ : Renames ρ) {m m' : KvMap Buffer} (h : MapR ρ m m') {k : String} {b b' : Buffer} (hb : Similar ρ b b') :
    MapR ρ (m.insert k b) (m'.insert (ρ k) b') := .cons ⟨rfl, hb⟩ (h.erase hρ k)

theorem MapR.values {m m' : KvMap Buffer} (h : MapR ρ m m') : Pairwise2 (Similar ρ) m.values m'.values :=
  Pairwise2.map h fun _ _ hp => hp.2

theorem MapR.mapStep (hρ : Renames ρ) {m m' : KvMap Buffer} (h : MapR ρ m m') {x x' : Option Buffer} (hx : OptR ρ x x') :
    MapR ρ (mapStep m x) (mapStep m' x') := by
  cases hx with
  | none => exact h
  | @some b b' hb =>
    unfold Mmkv.mapStep
    have hd : b'.isDeleting = b.isDeleting := by unfold Buffer.isDeleting; rw [hb.2.1]
    simp only [hd, hb.1]
    split
    · exact h.erase hρ _
    · exact h.insert hρ hb

theorem MapR.intoMap (hρ : Renames ρ) {items items' : List (Option Buffer)} (h : Pairwise2 (OptR ρ) items items') :
    MapR ρ (intoMap items).1 (intoMap items').1 := by
  unfold Mmkv.intoMap
  suffices hs : ∀ m m', MapR ρ m m' → MapR ρ (items.foldl Mmkv.mapStep m) (items'.foldl Mmkv.mapStep m') from hs [] [] .nil
  induction h with
  | nil => intro m m' hm; exact hm
  | cons hx _ ih => intro m m' hm; exact ih _ _ (hm.mapStep hρ hx)

/-- Two writers that look the same from outside. -/
structure WRel (s s' : WState) : Prop where
  len : s'.file.length = s.file.length
  head : s'.file.take 8 = s.file.take 8
  mmf : s.mmLen = s.file.length
  big : 8 ≤ s.file.length
  mm : s'.mmLen = s.mmLen
  page : s'.page = s.page
  pos : s'.position = s.position
  trim : s'.needTrim = s.needTrim
  usz : s'.usizeBytes = s.usizeBytes
  quota : s'.quota = s.quota
  span : s'.log.map Eff.span = s.log.map Eff.span

/-- Two runs with the same outcome. -/
inductive RunRel {T : Type} (R : T → T → Prop) : Run T → Run T → Prop
  | done {a b} (h : R a b) : RunRel R (.done a) (.done b)
  | panic {a b} (h : R a b) : RunRel R (.panic a) (.panic b)

theorem RunRel.andThen {T : Type} {R : T → T → Prop} {r r' : Run T} {f f' : T → Run T} (h : RunRel R r r')
    (hf : ∀ a b, R a b → RunRel R (f a) (f' b)) : RunRel R (r.andThen f) (r'.andThen f') := by
  cases h with
  | done h => exact hf _ _ h
  | panic h => exact .panic h

theorem WRel.writeOffset {s s' : WState} (h : WRel s s') : s'.writeOffset = s.writeOffset := by
  unfold WState.writeOffset WState.lenOffset
  rw [h.mm, h.usz, h.head]

theorem WRel.store {s s' : WState} (h : WRel s s') {off : Nat} {bs bs' : Bytes} (hl : bs'.length = bs.length)
    (hd : 8 ≤ off ∨ (off = 0 ∧ bs' = bs ∧ bs.length = 8)) : RunRel WRel (s.store off bs) (s'.store off bs') := by
  unfold WState.store
  have hmm := h.mm
  rw [hl]
  by_cases hle : off + bs.length ≤ s.mmLen
  · rw [if_pos hle, if_pos (by omega)]
    have h1 := h.len
    have h2 := h.mmf
    have l1 : (splice s.file off bs).length = s.file.length := splice_length _ _ _ (by omega)
    have l2 : (splice s'.file off bs').length = s'.file.length := splice_length _ _ _ (by omega)
    refine .done ⟨by simp only [l1, l2]; omega, ?_, by simp only [l1]; exact h2, by simp only [l1]; exact h.big, hmm, h.page, h.pos, h.trim, h.usz, h.quota, ?_⟩
    · simp only []
      rcases hd with hd | ⟨rfl, rfl, h8⟩
      · have ht : ∀ (f b : Bytes), off ≤ f.length → (splice f off b).take 8 = f.take 8 := by
          intro f b hf
          unfold splice
          rw [List.append_assoc, List.take_append_of_le_length (by simp; omega), List.take_take, Nat.min_eq_left hd]
        rw [ht _ _ (by omega), ht _ _ (by omega), h.head]
      · have ht : ∀ f : Bytes, (splice f 0 bs').take 8 = bs' := by
          intro f
          unfold splice
          rw [List.take_zero, List.nil_append, List.take_append_of_le_length (by omega), List.take_of_length_le (by omega)]
        rw [ht, ht]
    · simp only [List.map_append, h.span, List.map_cons, List.map_nil, Eff.span, hl]
  · rw [if_neg hle, if_neg (by omega)]
    exact .panic h

theorem WRel.storeLen {s s' : WState} (h : WRel s s') (n : Nat) : RunRel WRel (s.storeLen n) (s'.storeLen n) := by
  unfold WState.storeLen
  rw [h.usz]
  split
  · exact .panic h
  · exact h.store rfl (.inr ⟨rfl, rfl, by simp⟩)

theorem WRel.append {s s' : WState} (h : WRel s s') {v v' : Bytes} (hl : v'.length = v.length) : RunRel WRel (s.append v) (s'.append v') := by
  unfold WState.append
  rw [h.writeOffset]
  split
  · exact .panic h
  rename_i start hoff
  simp only [hl]
  refine (h.storeLen _).andThen fun a b hab => hab.store hl (.inl ?_)
  unfold WState.writeOffset WState.lenOffset at hoff
  simp only [] at hoff
  split at hoff
  · cases hoff
  split at hoff
  · cases hoff
  split at hoff
  · injection hoff with hoff; omega
  · cases hoff

theorem WRel.expand {s s' : WState} (h : WRel s s') : RunRel WRel s.expand s'.expand := by
  unfold WState.expand
  have hl := h.len
  have hb := h.big
  simp only [h.quota, h.len, h.page]
  split
  · refine .done ⟨by simp [hl], ?_, by simp [zeros], by simp; omega, rfl, rfl, h.pos, h.trim, h.usz, rfl, ?_⟩
    · simp only []
      rw [List.take_append_of_le_length (by omega), List.take_append_of_le_length (by omega), h.head]
    · simp only [List.map_append, h.span, List.map_cons, List.map_nil]
  · exact .panic h

theorem store_pos (s : WState) (off : Nat) (bs : Bytes) : (s.store off bs).state.position = s.position := by
  unfold WState.store; split <;> rfl

theorem append_pos (s : WState) (v : Bytes) : (s.append v).state.position = s.position := by
  unfold WState.append
  split
  · rfl
  unfold WState.storeLen
  simp only []
  split
  · rfl
  · rename_i start _ _
    cases h : s.store 0 (beBytes 8 (v.length + (start - WState.lenOffset))) with
    | panic s1 => have := store_pos s 0 (beBytes 8 (v.length + (start - WState.lenOffset))); rw [h] at this; exact this
    | done s1 =>
      have := store_pos s 0 (beBytes 8 (v.length + (start - WState.lenOffset)))
      rw [h] at this
      simp only [Run.andThen_done]
      rw [store_pos]; exact this

theorem expand_pos (s : WState) : s.expand.state.position = s.position := by
  unfold WState.expand; simp only []; split <;> rfl

/-- Encoders of records that look alike yield records of the same length, up to a position. -/
def EncRel (c c' : Codec) (n : Nat) (b b' : Buffer) : Prop :=
  ∀ pos ≤ n, ∃ r r', c.enc b pos = some r ∧ c'.enc b' pos = some r' ∧ r'.length = r.length

theorem WRel.trimLoop {c c' : Codec} {n : Nat} {bs bs' : List Buffer} (hb : Pairwise2 (EncRel c c' n) bs bs') :
    ∀ {s s' : WState} {maxLen : Nat}, WRel s s' → s.position + bs.length ≤ n + 1 → RunRel WRel (s.trimLoop c maxLen bs) (s'.trimLoop c' maxLen bs') := by
  induction hb with
  | nil => intro s s' maxLen h _; exact .done h
  | @cons b b' bs bs' hb _ ih =>
    intro s s' maxLen h hn
    simp only [List.length_cons] at hn
    obtain ⟨r, r', e1, e2, el⟩ := hb s.position (by omega)
    unfold WState.trimLoop
    rw [h.pos, e1, e2, h.writeOffset]
    simp only []
    split
    · exact .panic h
    rename_i off _
    simp only [el]
    have hx : RunRel (fun a b => WRel a b ∧ a.position = s.position) (if off + r.length > maxLen then s.expand else .done s)
        (if off + r.length > maxLen then s'.expand else .done s') := by
      split
      · have h1 := h.expand
        have h2 := expand_pos s
        generalize s.expand = x at h1 h2 ⊢
        generalize s'.expand = x' at h1 ⊢
        cases h1 with
        | done h1 => exact .done ⟨h1, h2⟩
        | panic h1 => exact .panic ⟨h1, h2⟩
      · exact .done ⟨h, rfl⟩
    generalize (if off + r.length > maxLen then s.expand else .done s) = x at hx ⊢
    generalize (if off + r.length > maxLen then s'.expand else .done s') = x' at hx ⊢
    cases hx with
    | panic h1 => exact .panic h1.1
    | @done a a' h1 =>
      simp only [Run.andThen_done]
      have h2 := h1.1.append el
      have h3 := append_pos a r
      generalize a.append r = y at h2 h3 ⊢
      generalize a'.append r' = y' at h2 ⊢
      cases h2 with
      | panic h2 => exact .panic h2
      | @done d d' h2 =>
        simp only [Run.andThen_done]
        have h3 : d.position = a.position := h3
        refine ih ⟨h2.len, h2.head, h2.mmf, h2.big, h2.mm, h2.page, ?_, h2.trim, h2.usz, h2.quota, h2.span⟩ ?_
        · simp only [h2.pos]
        · have := h1.2
          simp only []; omega

/-- Two writes that look alike. -/
theorem WRel.write {c c' : Codec} {okB : Buffer → Prop} {posOk : Nat → Prop} {recLen : Buffer → Nat} (hl : LawfulCodec c okB posOk recLen)
    (hl' : LawfulCodec c' okB posOk recLen) {s s' : WState} {content content' : Bytes} {items items' : List (Option Buffer)} {b b' : Buffer} {dup : Bool} {o o' : Order}
    (hρ : Renames ρ) (hrec : ∀ x x', Similar ρ x x' → recLen x = recLen x') (h : WRel s s') (hv : Valid c s content items) (hv' : Valid c' s' content' items')
    (hit : Pairwise2 (OptR ρ) items items') (hb : Similar ρ b b') (ho : SameOrder ρ o o') (hperm : ∀ l, (o l).Perm l) (hperm' : ∀ l, (o' l).Perm l)
    (hok : ∀ x, some x ∈ items ++ [some b] → okB x) (hok' : ∀ x, some x ∈ items' ++ [some b'] → okB x) (hpos : posOk (items.length + 1)) :
    RunRel WRel (s.write c o b dup) (s'.write c' o' b' dup) := by
  have henc : ∀ x x', some x ∈ items ++ [some b] → some x' ∈ items' ++ [some b'] → Similar ρ x x' → EncRel c c' (items.length + 1) x x' := by
    intro x x' hx hx' hs pos hp
    have hp' := hl.posOk_mono _ _ hpos hp
    obtain ⟨r, h1, h2, _⟩ := hl.enc_dec x pos (hok x hx) hp'
    obtain ⟨r', h3, h4, _⟩ := hl'.enc_dec x' pos (hok' x' hx') hp'
    exact ⟨r, r', h1, h3, by rw [h2, h4, hrec x x' hs]⟩
  have hsp := hv.pos
  obtain ⟨d, d', e1, e2, el⟩ := henc b b' (by simp) (by simp) hb s.position (by omega)
  have e2' : c'.enc b' s'.position = some d' := by rw [h.pos]; exact e2
  have hwo := h.writeOffset
  unfold WState.write
  rw [e1, e2', hwo]
  simp only []
  cases hoff : s.writeOffset with
  | none => exact .panic h
  | some off =>
  simp only [el]
  generalize hs0 : (if dup = true then { s with needTrim := true } else s) = s0
  generalize hs0' : (if dup = true then { s' with needTrim := true } else s') = s0'
  have h0 : WRel s0 s0' := by
    rw [← hs0, ← hs0']
    split
    · exact ⟨h.len, h.head, h.mmf, h.big, h.mm, h.page, h.pos, rfl, h.usz, h.quota, h.span⟩
    · exact h
  have hv0 : Valid c s0 content items := by
    rw [← hs0]; split
    · exact ⟨hv.usz, hv.mm, hv.holds, hv.framed, hv.pos⟩
    · exact hv
  have hv0' : Valid c' s0' content' items' := by
    rw [← hs0']; split
    · exact ⟨hv'.usz, hv'.mm, hv'.holds, hv'.framed, hv'.pos⟩
    · exact hv'
  have hbump : ∀ a a', WRel a a' → RunRel WRel (.done { a with position := a.position + 1 }) (.done { a' with position := a'.position + 1 }) := by
    intro a a' ha
    exact .done ⟨ha.len, ha.head, ha.mmf, ha.big, ha.mm, ha.page, by simp only [ha.pos], ha.trim, ha.usz, ha.quota, ha.span⟩
  have hmm := h.mm
  by_cases hle : d.length + off ≤ s.mmLen
  · rw [if_pos hle, if_pos (by omega)]
    exact (h0.append el).andThen hbump
  rw [if_neg hle, if_neg (show ¬ d.length + off ≤ s'.mmLen by omega), h0.trim]
  split
  · rw [readItems_eq hv0, readItems_eq hv0']
    simp only []
    have hm := (MapR.intoMap hρ hit).mapStep hρ (.some hb)
    have hvals := ho _ _ hm.values
    have hmem : ∀ x ∈ o (mapStep (intoMap items).1 (some b)).values, some x ∈ items ++ [some b] := fun x hx => mem_snapshot ((hperm _).mem_iff.1 hx)
    have hmem' : ∀ x ∈ o' (mapStep (intoMap items').1 (some b')).values, some x ∈ items' ++ [some b'] := fun x hx => mem_snapshot ((hperm' _).mem_iff.1 hx)
    have hE : Pairwise2 (EncRel c c' (items.length + 1)) (o (mapStep (intoMap items).1 (some b)).values) (o' (mapStep (intoMap items').1 (some b')).values) :=
      hvals.imp fun x hx x' hx' hs => henc x x' (hmem x hx) (hmem' x' hx') hs
    have hcount : (o (mapStep (intoMap items).1 (some b)).values).length ≤ items.length + 1 := by
      rw [(hperm _).length_eq]
      have := snapshot_length items b
      simpa [KvMap.values] using this
    rw [hmm]
    refine ((h0.storeLen 0).andThen fun a a' ha => ?_).andThen fun a a' ha => ?_
    · refine WRel.trimLoop hE (s := { a with position := 0 }) (s' := { a' with position := 0 }) ⟨ha.len, ha.head, ha.mmf, ha.big, ha.mm, ha.page, rfl, ha.trim, ha.usz, ha.quota, ha.span⟩ ?_
      simp only []
      omega
    · exact .done ⟨ha.len, ha.head, ha.mmf, ha.big, ha.mm, ha.page, ha.pos, rfl, ha.usz, ha.quota, ha.span⟩
  · exact (h0.expand.andThen fun a a' ha => ha.append el).andThen hbump

/-- Two writes that look alike both succeed, and what the two files then hold looks alike. -/
theorem WRel.written {c c' : Codec} {okB : Buffer → Prop} {posOk : Nat → Prop} {recLen : Buffer → Nat} {foreign : Prop} {K K' : Nat} (hl : LawfulCodec c okB posOk recLen)
    (hl' : LawfulCodec c' okB posOk recLen) {s s' : WState} {content content' : Bytes} {items items' : List (Option Buffer)} {b b' : Buffer} {dup : Bool} {o o' : Order}
    (hρ : Renames ρ) (hrec : ∀ x x', Similar ρ x x' → recLen x = recLen x') (h : WRel s s') (hw : WInv c okB recLen foreign K s content items)
    (hw' : WInv c' okB recLen foreign K' s' content' items') (hit : Pairwise2 (OptR ρ) items items') (hb : Similar ρ b b') (ho : SameOrder ρ o o')
    (hperm : ∀ l, (o l).Perm l) (hperm' : ∀ l, (o' l).Perm l) (hokb : okB b) (hokb' : okB b') (hlenb : recLen b ≤ s.page)
    (hbound : s.page * (K + 1) + 8 < 2 ^ 64) (hpos : posOk (K + 1)) (hbound' : s.page * (K' + 1) + 8 < 2 ^ 64) (hpos' : posOk (K' + 1)) :
    ∃ t t' its its', s.write c o b dup = .done t ∧ s'.write c' o' b' dup = .done t' ∧ WRel t t' ∧ t.readItems c = some its ∧ t'.readItems c' = some its' ∧
      Pairwise2 (OptR ρ) its its' := by
  obtain ⟨t, k, its, w1, i1, _, s1, _⟩ := write_done hl o hperm b dup K hw hokb hlenb hbound hpos
  obtain ⟨t', k', its', w2, i2, _, s2, _⟩ := write_done hl' o' hperm' b' dup K' hw' hokb' (by rw [← hrec _ _ hb, h.page]; exact hlenb) (by rw [h.page]; exact hbound') hpos'
  have hR := WRel.write hl hl' (dup := dup) hρ hrec h hw.toValid hw'.toValid hit hb ho hperm hperm'
    (by
      intro x hx
      rcases List.mem_append.1 hx with hx | hx
      · exact hw.bufs x hx
      · simp only [List.mem_singleton, Option.some.injEq] at hx; subst hx; exact hokb)
    (by
      intro x hx
      rcases List.mem_append.1 hx with hx | hx
      · exact hw'.bufs x hx
      · simp only [List.mem_singleton, Option.some.injEq] at hx; subst hx; exact hokb')
    (hl.posOk_mono _ _ hpos (by have := hw.count; omega))
  rw [w1, w2] at hR
  cases hR with
  | done hR =>
  refine ⟨t, t', its, its', w1, w2, hR, readItems_eq i1.toValid, readItems_eq i2.toValid, ?_⟩
  have hc : content'.length = content.length := by
    have h1 := writeOffset_eq hw.usz hw.mm hw.holds
    have h2 := writeOffset_eq hw'.usz hw'.mm hw'.holds
    rw [h.writeOffset, h1] at h2
    injection h2 with h2
    omega
  have hlen := h.len
  have hr := hrec _ _ hb
  have hval := ho _ _ ((MapR.intoMap hρ hit).mapStep hρ (.some hb)).values
  have htr := h.trim
  have happ : Pairwise2 (OptR ρ) (items ++ [some b]) (items' ++ [some b']) := hit.append (.single (.some hb))
  have hsm : Pairwise2 (OptR ρ) ((o (mapStep (intoMap items).1 (some b)).values).map some) ((o' (mapStep (intoMap items').1 (some b')).values).map some) :=
    hval.map fun _ _ hx => .some hx
  cases s1 with
  | append hf hi =>
    cases s2 with
    | append hf' hi' => rw [hi, hi']; exact happ
    | expand hf' => omega
    | trim hf' => omega
  | expand hf hn hi =>
    cases s2 with
    | append hf' hi' => omega
    | expand hf' hn' hi' => rw [hi, hi']; exact happ
    | trim hf' hn' => rw [htr, hn] at hn'; cases hn'
  | trim hf hn hi =>
    cases s2 with
    | append hf' hi' => omega
    | expand hf' hn' => rw [htr, hn] at hn'; cases hn'
    | trim hf' hn' hi' => rw [hi, hi']; exact hsm

/-- Jobs that look alike. -/
inductive JobR (ρ : String → String) : Job → Job → Prop
  | write {b b'} (dup : Bool) (h : Similar ρ b b') : JobR ρ (.write b dup) (.write b' dup)
  | remove : JobR ρ .remove .remove

/-- Calls that are at the same point. -/
inductive PhaseR (ρ : String → String) : Phase → Phase → Prop
  | push {j j'} (h : JobR ρ j j') : PhaseR ρ (.push j) (.push j')
  | same (p : Phase) (h : ∀ j, p ≠ .push j) : PhaseR ρ p p

/-- Two stores that look the same from outside. -/
structure IRel (ρ : String → String) (codecs : ι → Codec) (s s' : Inst ι) : Prop where
  kv : MapR ρ s.kv s'.kv
  valid : s'.valid = s.valid
  poisoned : s'.poisoned = s.poisoned
  joined : s'.joined = s.joined
  phase : PhaseR ρ s.phase s'.phase
  queue : Pairwise2 (JobR ρ) s.lp.queue s'.lp.queue
  buf : Pairwise2 (JobR ρ) s.lp.buf s'.lp.buf
  chan : s'.lp.chan = s.lp.chan
  sender : s'.lp.sender = s.lp.sender
  owed : s'.lp.owed = s.lp.owed
  io : s'.lp.io = s.lp.io
  removed : s'.lp.cb.removed = s.lp.cb.removed
  ws : WRel s.lp.cb.ws s'.lp.cb.ws
  items : ∃ its its', s.lp.cb.ws.readItems (codecs s.idx) = some its ∧ s'.lp.cb.ws.readItems (codecs s'.idx) = some its' ∧ Pairwise2 (OptR ρ) its its'

namespace Inst

/-- A store about to be re-created has lost its file. -/
theorem removed_of_clrOpen {codecs : ι → Codec} {s : Inst ι} (h : Book codecs s) (hp : s.phase = .clrOpen) : s.lp.cb.removed = true := by
  obtain ⟨hex, _⟩ := h.joined hp
  obtain ⟨cb0, _, hinv⟩ := h.inv
  rw [h.removed]
  obtain ⟨W, hW, _⟩ := h.jobsC (by simp [hp, Phase.clearing])
  obtain ⟨t, ht⟩ := hinv.exited_all hex
  rw [← ht]
  have : Job.remove ∈ s.jobs := by rw [hW]; simp
  simp only [jobs, hp, Phase.inflight, List.append_nil] at this
  exact List.mem_append_left _ this

/-- The job the thread runs next is one of the store's, and not counted yet. -/
theorem head_job {codecs : ι → Codec} {s : Inst ι} (h : Book codecs s) {j : Job} {rest : List Job} (hbuf : s.lp.buf = j :: rest) :
    j ∈ s.jobs ∧ s.lp.ran.length + 1 ≤ s.jobs.length := by
  obtain ⟨cb0, _, hinv⟩ := h.inv
  have hsp := hinv.split
  rw [h.late, List.append_nil, hbuf] at hsp
  constructor
  · unfold jobs; rw [← hsp]; simp
  · have := congrArg List.length hsp
    simp at this
    unfold jobs; simp; omega

/-- One event on two stores that look the same. -/
theorem irel_step {E : Env ι} {S0 S0' : Store} {K K' : Nat} {cs cs' : List Mutation} {s s' s1 : Inst ι} {e e' : Ev ι} {r : Option (Out Unit)}
    (hρ : Renames ρ) (hrec : ∀ x x', Similar ρ x x' → E.recLen x = E.recLen x') (h : DInv E S0 K cs s) (h' : DInv E S0' K' cs' s')
    (hR : IRel ρ E.codecs s s') (ha : EvAlike ρ e e') (he : e.Ok E) (he' : e'.Ok E)
    (hroom : E.Room (K + cs.length)) (hroom' : E.Room (K' + cs'.length)) (hs : step E.codecs s e = some (s1, r)) :
    ∃ s1', step E.codecs s' e' = some (s1', r) ∧ IRel ρ E.codecs s1 s1' := by
  have hq := h.ex
  have hq' := h'.ex
  have hbook := h.book
  have hbook' := h'.book
  have hjok := h.jobsOk
  have hjok' := h'.jobsOk
  have hpage := h.page
  have hpage' := h'.page
  have halive := h.alive
  clear h h'
  obtain ⟨idx, kv, valid, poisoned, phase, joined, queue, chan, sender, owed, buf, io, cb, pushed, late, ran⟩ := s
  obtain ⟨idx', kv', valid', poisoned', phase', joined', queue', chan', sender', owed', buf', io', cb', pushed', late', ran'⟩ := s'
  obtain ⟨hkv, hvalid, hpois, hjoin, hphase, hqueue, hbuf, hchan, hsender, howed, hio, hrem, hws, hitems⟩ := hR
  simp only [] at hkv hvalid hpois hjoin hphase hqueue hbuf hchan hsender howed hio hrem hws hitems
  subst hvalid hpois hjoin hchan hsender howed hio
  cases ha with
  | put k t bs bs' hl =>
    cases hphase with
    | push _ => simp [step] at hs
    | same _ hne =>
    simp only [step] at hs ⊢
    split at hs
    · cases hs
    rw [if_neg ‹_›]
    split at hs
    · cases hs; rw [if_pos ‹_›]; exact ⟨_, rfl, ⟨hkv, rfl, rfl, rfl, .same _ hne, hqueue, hbuf, rfl, rfl, rfl, rfl, hrem, hws, hitems⟩⟩
    rw [if_neg ‹_›]
    split at hs
    · cases hs; rw [if_pos ‹_›]; exact ⟨_, rfl, ⟨hkv, rfl, rfl, rfl, .same _ hne, hqueue, hbuf, rfl, rfl, rfl, rfl, hrem, hws, hitems⟩⟩
    rw [if_neg ‹_›]
    cases hs
    have hb : Similar ρ (Buffer.ofRaw k t bs) (Buffer.ofRaw (ρ k) t bs') := ⟨rfl, rfl, hl⟩
    rw [← hkv.get hρ k]
    exact ⟨_, rfl, ⟨hkv.insert hρ hb, rfl, rfl, rfl, .push (.write _ hb), hqueue, hbuf, rfl, rfl, rfl, rfl, hrem, hws, hitems⟩⟩
  | delete k =>
    cases hphase with
    | push _ => simp [step] at hs
    | same _ hne =>
    simp only [step] at hs ⊢
    split at hs
    · cases hs
    rw [if_neg ‹_›]
    split at hs
    · cases hs; rw [if_pos ‹_›]; exact ⟨_, rfl, ⟨hkv, rfl, rfl, rfl, .same _ hne, hqueue, hbuf, rfl, rfl, rfl, rfl, hrem, hws, hitems⟩⟩
    rw [if_neg ‹_›]
    split at hs
    · cases hs; rw [if_pos ‹_›]; exact ⟨_, rfl, ⟨hkv, rfl, rfl, rfl, .same _ hne, hqueue, hbuf, rfl, rfl, rfl, rfl, hrem, hws, hitems⟩⟩
    rw [if_neg ‹_›]
    have hget : (kv'.get (ρ k)).isNone = (kv.get k).isNone := by
      have := hkv.get hρ k
      cases h1 : kv.get k <;> cases h2 : kv'.get (ρ k) <;> simp_all
    rw [hget]
    split at hs
    · cases hs; rw [if_pos ‹_›]; exact ⟨_, rfl, ⟨hkv, rfl, rfl, rfl, .same _ hne, hqueue, hbuf, rfl, rfl, rfl, rfl, hrem, hws, hitems⟩⟩
    rw [if_neg ‹_›]
    cases hs
    exact ⟨_, rfl, ⟨hkv.erase hρ k, rfl, rfl, rfl, .push (.write _ ⟨rfl, rfl, rfl⟩), hqueue, hbuf, rfl, rfl, rfl, rfl, hrem, hws, hitems⟩⟩
  | clear =>
    cases hphase with
    | push _ => simp [step] at hs
    | same _ hne =>
    simp only [step] at hs ⊢
    split at hs
    · cases hs
    rw [if_neg ‹_›]
    split at hs
    · cases hs; rw [if_pos ‹_›]; exact ⟨_, rfl, ⟨hkv, rfl, rfl, rfl, .same _ hne, hqueue, hbuf, rfl, rfl, rfl, rfl, hrem, hws, hitems⟩⟩
    rw [if_neg ‹_›]
    split at hs
    · cases hs; rw [if_pos ‹_›]
      exact ⟨_, rfl, ⟨hkv, rfl, rfl, rfl, .same _ (by simp), hqueue, hbuf, rfl, rfl, rfl, rfl, hrem, hws, hitems⟩⟩
    rw [if_neg ‹_›]
    cases hs
    exact ⟨_, rfl, ⟨.nil, rfl, rfl, rfl, .same _ (by simp), hqueue, hbuf, rfl, rfl, rfl, rfl, hrem, hws, hitems⟩⟩
  | drop =>
    cases hphase with
    | push _ => simp [step] at hs
    | same _ hne =>
    simp only [step] at hs ⊢
    split at hs
    · cases hs
    rw [if_neg ‹_›]
    cases hs
    exact ⟨_, rfl, ⟨hkv, rfl, rfl, rfl, .same _ (by simp), hqueue, hbuf, rfl, rfl, rfl, rfl, hrem, hws, hitems⟩⟩
  | api i i' =>
    simp only [step] at hs ⊢
    cases hphase with
    | @push j j' hj =>
      cases hs
      refine ⟨_, rfl, ?_⟩
      simp only [Looper.push]
      have hqj := hqueue.append (.single hj)
      split
      · exact ⟨hkv, rfl, rfl, rfl, .same _ (by simp), hqj, hbuf, rfl, rfl, rfl, rfl, hrem, hws, hitems⟩
      · exact ⟨hkv, rfl, rfl, rfl, .same _ (by simp), hqj, hbuf, rfl, rfl, rfl, rfl, hrem, hws, hitems⟩
    | same _ hne =>
    cases phase with
    | idle => cases hs
    | closed => cases hs
    | push j => exact absurd rfl (hne j)
    | clrPush =>
      cases hs
      refine ⟨_, rfl, ?_⟩
      simp only [Looper.push]
      have hqj := hqueue.append (.single .remove)
      split
      · exact ⟨hkv, rfl, rfl, rfl, .same _ (by simp), hqj, hbuf, rfl, rfl, rfl, rfl, hrem, hws, hitems⟩
      · exact ⟨hkv, rfl, rfl, rfl, .same _ (by simp), hqj, hbuf, rfl, rfl, rfl, rfl, hrem, hws, hitems⟩
    | send =>
      simp only [Looper.send] at hs ⊢
      cases sender'
      · cases hs
        exact ⟨_, rfl, ⟨hkv, rfl, rfl, rfl, .same _ (by simp), hqueue, hbuf, rfl, rfl, rfl, rfl, hrem, hws, hitems⟩⟩
      · simp only [if_true] at hs ⊢
        by_cases hd : io' = .dead ∨ io' = .exited
        · simp only [if_pos hd] at hs ⊢
          cases hs
          exact ⟨_, rfl, ⟨hkv, rfl, rfl, rfl, .same _ (by simp), hqueue, hbuf, rfl, rfl, rfl, rfl, hrem, hws, hitems⟩⟩
        · simp only [if_neg hd] at hs ⊢
          cases hs
          exact ⟨_, rfl, ⟨hkv, rfl, rfl, rfl, .same _ (by simp), hqueue, hbuf, rfl, rfl, rfl, rfl, hrem, hws, hitems⟩⟩
    | clrSend =>
      simp only [Looper.send] at hs ⊢
      cases sender'
      · cases hs
        exact ⟨_, rfl, ⟨hkv, rfl, rfl, rfl, .same _ (by simp), hqueue, hbuf, rfl, rfl, rfl, rfl, hrem, hws, hitems⟩⟩
      · simp only [if_true] at hs ⊢
        by_cases hd : io' = .dead ∨ io' = .exited
        · simp only [if_pos hd] at hs ⊢
          cases hs
          exact ⟨_, rfl, ⟨hkv, rfl, rfl, rfl, .same _ (by simp), hqueue, hbuf, rfl, rfl, rfl, rfl, hrem, hws, hitems⟩⟩
        · simp only [if_neg hd] at hs ⊢
          cases hs
          exact ⟨_, rfl, ⟨hkv, rfl, rfl, rfl, .same _ (by simp), hqueue, hbuf, rfl, rfl, rfl, rfl, hrem, hws, hitems⟩⟩
    | clrQuit =>
      simp only [Looper.quitSend] at hs ⊢
      cases sender'
      · cases hs
        exact ⟨_, rfl, ⟨hkv, rfl, rfl, rfl, .same _ (by simp), hqueue, hbuf, rfl, rfl, rfl, rfl, hrem, hws, hitems⟩⟩
      · simp only [if_true] at hs ⊢
        by_cases hd : io' = .dead ∨ io' = .exited
        · simp only [if_pos hd] at hs ⊢
          cases hs
          exact ⟨_, rfl, ⟨hkv, rfl, rfl, rfl, .same _ (by simp), hqueue, hbuf, rfl, rfl, rfl, rfl, hrem, hws, hitems⟩⟩
        · simp only [if_neg hd] at hs ⊢
          cases hs
          exact ⟨_, rfl, ⟨hkv, rfl, rfl, rfl, .same _ (by simp), hqueue, hbuf, rfl, rfl, rfl, rfl, hrem, hws, hitems⟩⟩
    | clrJoin =>
      simp only [] at hs ⊢
      split at hs
      · cases hs; rw [if_pos ‹_›]
        exact ⟨_, rfl, ⟨hkv, rfl, rfl, rfl, .same _ (by simp), hqueue, hbuf, rfl, rfl, rfl, rfl, hrem, hws, hitems⟩⟩
      rw [if_neg ‹_›]
      split at hs
      · cases hs; rw [if_pos ‹_›]
        exact ⟨_, rfl, ⟨hkv, rfl, rfl, rfl, .same _ (by simp), hqueue, hbuf, rfl, rfl, rfl, rfl, hrem, hws, hitems⟩⟩
      · cases hs
    | clrOpen =>
      have r1 := removed_of_clrOpen hbook rfl
      have r2 := removed_of_clrOpen hbook' rfl
      obtain ⟨_, hjd⟩ := hbook.joined rfl
      obtain ⟨_, _, _, _, _, _, _, hw, _⟩ := hq
      obtain ⟨_, _, _, _, _, _, _, hw', _⟩ := hq'
      simp only [] at r1 r2 hjd hpage hpage'
      have u1 := hw.usz
      have u2 := hw'.usz
      have q1 := hw.quota
      have q2 := hw'.quota
      simp only [] at u1 u2 q1 q2
      simp only [disk, r1, r2, if_true, hpage, hpage', u1, u2, q1, q2, openAt, openStore_nil _ _ E.page8, hjd] at hs ⊢
      cases hs
      refine ⟨_, rfl, ⟨.nil, rfl, rfl, rfl, .same _ (by simp), .nil, .nil, rfl, rfl, rfl, rfl, rfl, ⟨rfl, rfl, by simp [Looper.new, zeros], by simp [Looper.new, zeros, E.page8], rfl, rfl, rfl, rfl, rfl, rfl, rfl⟩, ?_⟩⟩
      have hread : ∀ c : Codec, WState.readItems { file := zeros E.page, mmLen := E.page, page := E.page, position := 0, needTrim := false, usizeBytes := 8, quota := none, log := [] } c = some [] :=
        fun c => readItems_eq ⟨rfl, by simp [zeros], ⟨by simp, _, zeros_eq _ E.page8⟩, .nil _, rfl⟩
      exact ⟨[], [], hread _, hread _, .nil⟩
  | io o o' ho =>
    simp only [step, Looper.ioStep] at hs ⊢
    cases io' with
    | recv =>
      cases chan' with
      | nil =>
        cases sender'
        · cases hs
          exact ⟨_, rfl, ⟨hkv, rfl, rfl, rfl, hphase, hqueue, hbuf, rfl, rfl, rfl, rfl, hrem, hws, hitems⟩⟩
        · cases hs
      | cons sg rest =>
        cases sg <;> cases hs <;>
          exact ⟨_, rfl, ⟨hkv, rfl, rfl, rfl, hphase, hqueue, hbuf, rfl, rfl, rfl, rfl, hrem, hws, hitems⟩⟩
    | swap =>
      cases hs
      exact ⟨_, rfl, ⟨hkv, rfl, rfl, rfl, hphase, hbuf, hqueue, rfl, rfl, rfl, rfl, hrem, hws, hitems⟩⟩
    | exited => cases hs
    | dead => cases hs
    | unwinding => exact absurd rfl halive.1
    | run =>
      cases hbuf with
      | nil =>
        cases hs
        exact ⟨_, rfl, ⟨hkv, rfl, rfl, rfl, hphase, hqueue, .nil, rfl, rfl, rfl, rfl, hrem, hws, hitems⟩⟩
      | @cons j j' rest rest' hj hrest =>
      cases hj with
      | remove =>
        simp only [execJob] at hs ⊢
        cases hs
        exact ⟨_, rfl, ⟨hkv, rfl, rfl, rfl, hphase, hqueue, hrest, rfl, rfl, rfl, rfl, rfl, hws, hitems⟩⟩
      | @write b b' dup hb =>
        obtain ⟨_, _, K0, content, items, hcs, _, hw, hK, _⟩ := hq
        obtain ⟨_, _, K0', content', items', hcs', _, hw', hK', _⟩ := hq'
        obtain ⟨its, its', i1, i2, hit⟩ := hitems
        rw [readItems_eq hw.toValid] at i1
        rw [readItems_eq hw'.toValid] at i2
        injection i1 with i1
        injection i2 with i2
        subst i1 i2
        obtain ⟨m1, n1⟩ := head_job hbook rfl
        obtain ⟨m2, n2⟩ := head_job hbook' rfl
        obtain ⟨ok1, len1⟩ := hjok b dup m1
        obtain ⟨ok2, len2⟩ := hjok' b' dup m2
        simp only [] at n1 n2 hpage hpage' hw hw' hK hK'
        have : Nonempty ι := ⟨idx⟩
        have hr1 := hroom.mono (m := K0 + ran.length + 1) (by omega)
        have hr2 := hroom'.mono (m := K0' + ran'.length + 1) (by omega)
        obtain ⟨t, t', its, its', e1, e2, hR, p1, p2, hp⟩ := WRel.written (E.lawful idx) (E.lawful idx') (dup := dup) hρ hrec hws hw hw' hit hb ho he he' ok1 ok2
          (by rw [hpage]; exact len1) (by rw [hpage]; exact hr1.1) hr1.2 (by rw [hpage]; exact hr2.1) hr2.2
        simp only [execJob, e1, e2] at hs ⊢
        cases hs
        exact ⟨_, rfl, ⟨hkv, rfl, rfl, rfl, hphase, hqueue, hrest, rfl, rfl, rfl, rfl, hrem, hR, its, its', p1, p2, hp⟩⟩

/-- The calls of histories that look alike are as many. -/
theorem alike_calls {es es' : List (Ev ι)} (h : Pairwise2 (EvAlike ρ) es es') : (calls es').length = (calls es).length := by
  unfold calls
  induction h with
  | nil => rfl
  | cons hab _ ih => cases hab <;> simp [List.filterMap_cons, Ev.call?, ih]

/-- A history on two stores that look the same. -/
theorem irel_run {E : Env ι} {S0 S0' : Store} {K K' : Nat} {es es' : List (Ev ι)} (hρ : Renames ρ)
    (hrec : ∀ x x', Similar ρ x x' → E.recLen x = E.recLen x') (ha : Pairwise2 (EvAlike ρ) es es') :
    ∀ {cs cs' : List Mutation} {s s' s1 : Inst ι} {rs : List (Out Unit)}, DInv E S0 K cs s → DInv E S0' K' cs' s' → IRel ρ E.codecs s s' →
      (∀ e ∈ es, e.Ok E) → (∀ e ∈ es', e.Ok E) → E.Room (K + cs.length + (calls es).length) → E.Room (K' + cs'.length + (calls es').length) →
      run E.codecs s es = some (s1, rs) → ∃ s1', run E.codecs s' es' = some (s1', rs) ∧ IRel ρ E.codecs s1 s1' := by
  induction ha with
  | nil =>
    intro cs cs' s s' s1 rs _ _ hR _ _ _ _ hs
    cases hs
    exact ⟨s', rfl, hR⟩
  | @cons e e' es es' hab t ih =>
    intro cs cs' s s' s1 rs h h' hR hok hok' hroom hroom' hs
    have : Nonempty ι := ⟨s.idx⟩
    have hcnt : ∀ (e : Ev ι) l, (calls (e :: l)).length = e.call?.toList.length + (calls l).length := by
      intro e l
      unfold calls
      rw [List.filterMap_cons]
      cases e.call? <;> simp <;> omega
    rw [hcnt] at hroom hroom'
    simp only [run] at hs
    split at hs
    · cases hs
    rename_i s2 r hst
    split at hs
    · cases hs
    rename_i s3 rs' hrun
    cases hs
    have hr1 := hroom.mono (m := K + cs.length) (by omega)
    have hr2 := hroom'.mono (m := K' + cs'.length) (by omega)
    obtain ⟨s2', hst', hR2⟩ := irel_step hρ hrec h h' hR hab (hok _ List.mem_cons_self) (hok' _ List.mem_cons_self) hr1 hr2 hst
    have hd := (dinv_step h (hok _ List.mem_cons_self) hr1 hst).2
    have hd' := (dinv_step h' (hok' _ List.mem_cons_self) hr2 hst').2
    obtain ⟨s3', hrun', hR3⟩ := ih hd hd' hR2 (fun x hx => hok x (List.mem_cons_of_mem _ hx)) (fun x hx => hok' x (List.mem_cons_of_mem _ hx))
      (by simpa [Nat.add_assoc] using hroom) (by simpa [Nat.add_assoc] using hroom') hrun
    refine ⟨s3', ?_, hR3⟩
    simp only [run, hst', hrun']

end Inst

/-- A writer on a file just opened. -/
def freshWs (page : Nat) (file : Bytes) : WState :=
  { file := file, mmLen := file.length, page := page, position := 0, needTrim := false, usizeBytes := 8, quota := none }

/-- Two data files that look the same from outside. -/
def FileRel (ρ : String → String) (c c' : Codec) (page : Nat) (file file' : Bytes) : Prop :=
  (file = [] ∧ file' = []) ∨ (8 ≤ file.length ∧ file'.length = file.length ∧ file'.take 8 = file.take 8 ∧
    ∃ its its', (freshWs page file).readItems c = some its ∧ (freshWs page file').readItems c' = some its' ∧ Pairwise2 (OptR ρ) its its')

/-- Two directories that look the same from outside. -/
def DirRel (ρ : String → String) (codecs : ι → Codec) (page : Nat) (d d' : Dir ι) : Prop :=
  ∀ i i', (∀ j, d.idx = some j → i = j) → (∀ j, d'.idx = some j → i' = j) → FileRel ρ (codecs i) (codecs i') page d.file d'.file

namespace Inst

theorem irel_dir {E : Env ι} {S0 S0' : Store} {K K' : Nat} {cs cs' : List Mutation} {s s' : Inst ι} (h : DInv E S0 K cs s) (h' : DInv E S0' K' cs' s')
    (hR : IRel ρ E.codecs s s') : DirRel ρ E.codecs E.page s.dir s'.dir := by
  intro i i' hi hi'
  have hrem := hR.removed
  cases hr : s.lp.cb.removed with
  | true =>
    rw [hr] at hrem
    exact .inl ⟨by simp [dir, disk, hr], by simp [dir, disk, hrem]⟩
  | false =>
    rw [hr] at hrem
    right
    simp only [dir, disk, hr, hrem, Bool.false_eq_true, if_false, Option.some.injEq] at hi hi' ⊢
    refine ⟨hR.ws.big, hR.ws.len, hR.ws.head, ?_⟩
    have hi := hi _ rfl
    have hi' := hi' _ rfl
    subst hi hi'
    obtain ⟨_, _, _, content, items, _, _, hw, _⟩ := h.ex
    obtain ⟨_, _, _, content', items', _, _, hw', _⟩ := h'.ex
    obtain ⟨its, its', e1, e2, hp⟩ := hR.items
    rw [readItems_eq hw.toValid] at e1
    rw [readItems_eq hw'.toValid] at e2
    injection e1 with e1
    injection e2 with e2
    subst e1 e2
    have v1 : (freshWs E.page s.lp.cb.ws.file).readItems (E.codecs s.idx) = s.lp.cb.ws.readItems (E.codecs s.idx) := by
      unfold WState.readItems WState.writeOffset freshWs
      simp only [hw.mm, hw.usz]
    have v2 : (freshWs E.page s'.lp.cb.ws.file).readItems (E.codecs s'.idx) = s'.lp.cb.ws.readItems (E.codecs s'.idx) := by
      unfold WState.readItems WState.writeOffset freshWs
      simp only [hw'.mm, hw'.usz]
    rw [v1, v2, readItems_eq hw.toValid, readItems_eq hw'.toValid]
    exact ⟨_, _, rfl, rfl, hp⟩

theorem irel_open {codecs : ι → Codec} {page : Nat} (h8 : 8 ≤ page) {file file' : Bytes} {i i' : ι} {s s' : Inst ι} (hρ : Renames ρ)
    (hd : FileRel ρ (codecs i) (codecs i') page file file')
    (ho : openAt codecs i page file = some s) (ho' : openAt codecs i' page file' = some s') : IRel ρ codecs s s' := by
  unfold openAt at ho ho'
  rcases hd with ⟨e, e'⟩ | ⟨h8', hlen, hhead, hit⟩
  · rw [e, openStore_nil _ _ h8] at ho
    rw [e', openStore_nil _ _ h8] at ho'
    cases ho
    cases ho'
    refine ⟨.nil, rfl, rfl, rfl, .same _ (by simp), .nil, .nil, rfl, rfl, rfl, rfl, rfl, ⟨rfl, rfl, by simp [Looper.new, zeros], by simp [Looper.new, zeros, h8], rfl, rfl, rfl, rfl, rfl, rfl, rfl⟩, ?_⟩
    have hread : ∀ c : Codec, WState.readItems { file := zeros page, mmLen := page, page := page, position := 0, needTrim := false, usizeBytes := 8, quota := none, log := [] } c = some [] :=
      fun c => readItems_eq ⟨rfl, by simp [zeros], ⟨by simp, _, zeros_eq _ h8⟩, .nil _, rfl⟩
    exact ⟨[], [], hread _, hread _, .nil⟩
  · obtain ⟨its, its', r1, r2, hp⟩ := hit
    have hc : ∀ file : Bytes, 8 ≤ file.length → configNew page file = file := by
      intro file hf
      unfold configNew; rw [if_neg (by omega)]
    unfold freshWs at r1 r2
    unfold openStore at ho ho'
    simp only [hc _ h8', hc _ (by omega : 8 ≤ file'.length)] at ho ho'
    rw [if_neg (by omega)] at ho ho'
    simp only [r1] at ho
    simp only [r2] at ho'
    cases ho
    cases ho'
    refine ⟨MapR.intoMap hρ hp, rfl, rfl, rfl, .same _ (by simp), .nil, .nil, rfl, rfl, rfl, rfl, rfl, ⟨hlen, hhead, rfl, h8', hlen, rfl, ?_, rfl, rfl, rfl, rfl⟩, its, its', r1, r2, hp⟩
    exact hp.length_eq.symm

/-- What a reader of two stores that look the same is told. -/
theorem irel_get {codecs : ι → Codec} {s s' : Inst ι} (hρ : Renames ρ) (hR : IRel ρ codecs s s') (k : String) (t : BitVec 32) :
    SameLook (s.getAs k t .ok) (s'.getAs (ρ k) t .ok) := by
  unfold getAs
  rw [hR.poisoned, hR.valid]
  split
  · exact rfl
  split
  · exact rfl
  have hkv := hR.kv
  generalize s.kv = m at hkv ⊢
  generalize s'.kv = m' at hkv ⊢
  unfold KvMap.get
  induction hkv with
  | nil => exact rfl
  | @cons p p' l l' hp _ ih =>
    rw [List.find?_cons, List.find?_cons]
    simp only [hp.1, key_eq hρ]
    split
    · rename_i hb
      split at hb
      · cases hb
      · rw [hb] at ih; exact ih
    · rename_i hb
      split at hb
      · cases hb
        have hct : p'.2.checkType t = p.2.checkType t := by
          unfold Buffer.checkType
          have hdl : p'.2.isDeleting = p.2.isDeleting := by unfold Buffer.isDeleting; rw [hp.2.2.1]
          rw [hdl, hp.2.2.1]
        simp only [Option.map_some, Buffer.parseAs, hct]
        cases p.2.checkType t with
        | some e => exact rfl
        | none => exact hp.2.2.2
      · rw [hb] at ih; exact ih

end Inst

/-- A session on two directories that look the same. -/
theorem session_alike {E : Env ι} {es es' : List (Ev ι)} {K K' : Nat} {d d' : Dir ι} {S0 S0' : Store} {i i' : ι} {s s1 : Inst ι} {rs : List (Out Unit)} (hρ : Renames ρ)
    (hrec : ∀ x x', Similar ρ x x' → E.recLen x = E.recLen x') (ha : Pairwise2 (EvAlike ρ) es es') (hd : DirRel ρ E.codecs E.page d d')
    (hg : GoodDir E K d S0) (hg' : GoodDir E K' d' S0') (hi : ∀ j, d.idx = some j → i = j) (hi' : ∀ j, d'.idx = some j → i' = j)
    (hok : ∀ e ∈ es, e.Ok E) (hok' : ∀ e ∈ es', e.Ok E) (hroom : E.Room (K + (calls es).length)) (hroom' : E.Room (K' + (calls es').length))
    (ho : Inst.openAt E.codecs i E.page d.file = some s) (hr : Inst.run E.codecs s es = some (s1, rs)) :
    ∃ s' s1', Inst.openAt E.codecs i' E.page d'.file = some s' ∧ Inst.run E.codecs s' es' = some (s1', rs) ∧ IRel ρ E.codecs s1 s1' ∧
      DInv E S0 K (calls es) s1 ∧ DInv E S0' K' (calls es') s1' := by
  obtain ⟨t, ht, hinv, _⟩ := Inst.dinv_open (hg i hi)
  rw [ho] at ht
  injection ht with ht
  subst ht
  obtain ⟨s', ho', hinv', _⟩ := Inst.dinv_open (hg' i' hi')
  have hR := Inst.irel_open E.page8 hρ (hd i i' hi hi') ho ho'
  have hra : E.Room (K + ([] : List Mutation).length + (calls es).length) := hroom
  have hrb : E.Room (K' + ([] : List Mutation).length + (calls es').length) := hroom'
  obtain ⟨s1', hr', hR1⟩ := Inst.irel_run hρ hrec ha hinv hinv' hR hok hok' hra hrb hr
  have hv := (Inst.dinv_run es hinv hok hra hr).2
  have hv' := (Inst.dinv_run es' hinv' hok' hrb hr').2
  rw [List.nil_append] at hv hv'
  exact ⟨s', s1', ho', hr', hR1, hv, hv'⟩

theorem IRel.closedOk {codecs : ι → Codec} {s s' : Inst ι} (h : IRel ρ codecs s s') (hc : s.closedOk) : s'.closedOk := by
  obtain ⟨h1, h2⟩ := hc
  have hph := h.phase
  rw [h1] at hph
  refine ⟨?_, by rw [h.io]; exact h2⟩
  generalize s'.phase = p at hph ⊢
  cases hph; rfl

/-- Several sessions on two directories that look the same. -/
theorem life_alike [Subsingleton ι] {E : Env ι} {d1 : Dir ι} {xs xs' : List (Session ι)} (hρ : Renames ρ)
    (hrec : ∀ x x', Similar ρ x x' → E.recLen x = E.recLen x') (ha : Pairwise2 (Session.Alike ρ) xs xs') :
    ∀ {K K' : Nat} {d d' : Dir ι} {S0 S0' : Store} {rss : List (List (Out Unit))}, Life E.codecs E.page d xs rss d1 → DirRel ρ E.codecs E.page d d' →
      GoodDir E K d S0 → GoodDir E K' d' S0' → (∀ x ∈ xs, ∀ e ∈ x.evs, e.Ok E) → (∀ x ∈ xs', ∀ e ∈ x.evs, e.Ok E) → E.Room (K + callCount xs) → E.Room (K' + callCount xs') →
      ∃ d1', Life E.codecs E.page d' xs' rss d1' ∧ DirRel ρ E.codecs E.page d1 d1' := by
  induction ha with
  | nil =>
    intro K K' d d' S0 S0' rss hl hd _ _ _ _ _ _
    cases hl
    exact ⟨d', .nil _, hd⟩
  | @cons x x' xs xs' hx _ ih =>
    intro K K' d d' S0 S0' rss hl hd hg hg' hok hok' hroom hroom'
    have hne : Nonempty ι := ⟨x.i⟩
    cases hl with
    | @cons _ _ _ _ s s1 rs rss hi ho hr hc rest =>
    have hi' : ∀ j, d'.idx = some j → x'.i = j := fun _ _ => Subsingleton.elim _ _
    have hcnt : ∀ (x : Session ι) xs, callCount (x :: xs) = (calls x.evs).length + callCount xs := fun x xs => by simp [callCount]
    rw [hcnt] at hroom hroom'
    obtain ⟨s', s1', ho', hr', hR1, hv, hv'⟩ := session_alike hρ hrec hx.evs hd hg hg' hi hi' (hok x List.mem_cons_self) (hok' x' List.mem_cons_self)
      (hroom.mono (by omega)) (hroom'.mono (by omega)) ho hr
    have hc' : x'.clean = true → s1'.closedOk := fun hcl => hR1.closedOk (hc (by rw [← hx.clean]; exact hcl))
    obtain ⟨m, hm, hmc, hg1⟩ := goodDir_end hv x.clean hc
    obtain ⟨m', hm', hmc', hg1'⟩ := goodDir_end hv' x'.clean hc'
    obtain ⟨d1', hl1, hd1⟩ := ih rest (Inst.irel_dir hv hv' hR1) hg1 hg1' (fun y hy => hok y (List.mem_cons_of_mem _ hy)) (fun y hy => hok' y (List.mem_cons_of_mem _ hy))
      (by rw [Nat.add_assoc]; exact hroom) (by rw [Nat.add_assoc]; exact hroom')
    exact ⟨d1', .cons hi' ho' hr' hc' hl1, hd1⟩

end Mmkv
