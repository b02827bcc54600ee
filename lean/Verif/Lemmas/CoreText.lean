import Verif.Model.CoreText
import Verif.Lemmas.Alike
/-! Stores that look the same from outside log the same. -/

namespace Mmkv.CoreText
open Spec LogText
variable {ι : Type} {ρ : String → String}

/-- No message of an error. -/
def NoError (l : List Msg) : Prop := ∀ m ∈ l, m.1 ≠ LogLevel.error

theorem NoError.append {l l' : List Msg} (h : NoError l) (h' : NoError l') : NoError (l ++ l') := by
  intro m hm
  rcases List.mem_append.1 hm with hm | hm
  · exact h m hm
  · exact h' m hm

theorem NoError.nil : NoError [] := fun _ h => nomatch h

theorem NoError.cons {m : Msg} {l : List Msg} (h : m.1 ≠ LogLevel.error) (h' : NoError l) : NoError (m :: l) := by
  intro x hx
  rcases List.mem_cons.1 hx with rfl | hx
  · exact h
  · exact h' x hx

theorem iterText_framed {c : Codec} {pos : Nat} {content : Bytes} {items : List (Option Buffer)} (h : Framed c pos content items) (hn : none ∉ items) :
    ∀ fuel, content.length ≤ fuel → iterText c fuel pos content = [] := by
  induction h with
  | nil pos => intro fuel _; cases fuel <;> rfl
  | cons pos chunk content ob items hne hdec htail ih =>
    intro fuel hf
    cases chunk with
    | nil => exact absurd rfl hne
    | cons x xs =>
      simp only [List.cons_append, List.length_cons, List.length_append] at hf
      cases fuel with
      | zero => omega
      | succ fuel =>
        have hd := hdec content
        simp only [List.cons_append] at hd ⊢
        simp only [iterText, hd]
        cases ob with
        | none => simp at hn
        | some b' =>
          rw [← List.cons_append, List.drop_left]
          simpa using ih (by simpa using hn) fuel (by omega)

theorem readText_valid {c : Codec} {s : WState} {content : Bytes} {items : List (Option Buffer)} (h : Valid c s content items) (hn : none ∉ items) :
    readText c s = [] := by
  unfold readText
  rw [writeOffset_eq h.usz h.mm h.holds]
  have hl := h.holds.len
  simp only []
  rw [show WState.lenOffset = 8 from rfl]
  split
  · rfl
  split
  · rfl
  rw [h.holds.body]
  exact iterText_framed h.framed hn _ (Nat.le_refl _)

theorem expandText_noError (s : WState) : NoError (expandText s) := by
  unfold expandText
  refine .cons (fun h => nomatch h) ?_
  split
  · exact .cons (fun h => nomatch h) .nil
  · exact .nil

theorem expandText_alike {s s' : WState} (h : WRel s s') : expandText s' = expandText s := by
  unfold expandText
  have hx := h.expand
  generalize s.expand = x at hx ⊢
  generalize s'.expand = x' at hx ⊢
  rw [h.len]
  cases hx with
  | done hx => simp only [hx.len]
  | panic hx => rfl

theorem trimLoopText_noError (c : Codec) (maxLen : Nat) : ∀ (bs : List Buffer) (s : WState), NoError (trimLoopText c maxLen bs s)
  | [], _ => .nil
  | b :: bs, s => by
    unfold trimLoopText
    split
    · exact .nil
    split
    · exact .nil
    refine .append ?_ ?_
    · split
      · exact expandText_noError s
      · exact .nil
    · split
      · exact trimLoopText_noError c maxLen bs _
      · exact .nil

theorem trimLoopText_alike {c c' : Codec} {n : Nat} {bs bs' : List Buffer} (hb : Pairwise2 (EncRel c c' n) bs bs') :
    ∀ {s s' : WState} {maxLen : Nat}, WRel s s' → s.position + bs.length ≤ n + 1 → trimLoopText c' maxLen bs' s' = trimLoopText c maxLen bs s := by
  induction hb with
  | nil => intro s s' maxLen _ _; rfl
  | @cons b b' bs bs' hb _ ih =>
    intro s s' maxLen h hn
    simp only [List.length_cons] at hn
    obtain ⟨r, r', e1, e2, el⟩ := hb s.position (by omega)
    unfold trimLoopText
    rw [h.pos, e1, e2, h.writeOffset]
    simp only []
    split
    · rfl
    rename_i off _
    simp only [el]
    rw [expandText_alike h]
    congr 1
    have hx : RunRel (fun a b => WRel a b ∧ a.position = s.position) (if off + r.length > maxLen then s.expand else .done s)
        (if off + r.length > maxLen then s'.expand else .done s') := by
      split
      · have h1 := h.expand
        have h2 := expand_pos s
        generalize s.expand = x at h1 h2 ⊢
        generalize s'.expand = x' at h1 ⊢
        cases h1 with
        | done h1 => exact .done ⟨h1, h2⟩
        | panic h1 => exact .panic ⟨h1, h2⟩
      · exact .done ⟨h, rfl⟩
    generalize (if off + r.length > maxLen then s.expand else .done s) = x at hx ⊢
    generalize (if off + r.length > maxLen then s'.expand else .done s') = x' at hx ⊢
    cases hx with
    | panic h1 => rfl
    | @done a a' h1 =>
      simp only [Run.andThen_done]
      have h2 := h1.1.append el
      have h3 := append_pos a r
      generalize a.append r = y at h2 h3 ⊢
      generalize a'.append r' = y' at h2 ⊢
      cases h2 with
      | panic h2 => rfl
      | @done d d' h2 =>
        have h3 : d.position = a.position := h3
        refine ih ⟨h2.len, h2.head, h2.mmf, h2.big, h2.mm, h2.page, ?_, h2.trim, h2.usz, h2.quota, h2.span⟩ ?_
        · simp only [h2.pos]
        · have := h1.2
          simp only []; omega

theorem wroteText_alike {s s' : WState} (h : WRel s s') : wroteText s' = wroteText s := by
  unfold wroteText; rw [h.writeOffset, h.pos]

theorem valid_dup {c : Codec} {s : WState} {content : Bytes} {items : List (Option Buffer)} (h : Valid c s content items) (dup : Bool) :
    Valid c (if dup = true then { s with needTrim := true } else s) content items := by
  split
  · exact ⟨h.usz, h.mm, h.holds, h.framed, h.pos⟩
  · exact h

theorem wrel_dup {s s' : WState} (h : WRel s s') (dup : Bool) :
    WRel (if dup = true then { s with needTrim := true } else s) (if dup = true then { s' with needTrim := true } else s') := by
  split
  · exact ⟨h.len, h.head, h.mmf, h.big, h.mm, h.page, h.pos, rfl, h.usz, h.quota, h.span⟩
  · exact h

theorem writeText_noError {c : Codec} {s : WState} {content : Bytes} {items : List (Option Buffer)} (h : Valid c s content items) (hn : none ∉ items)
    (o : Order) (b : Buffer) (dup : Bool) : NoError (writeText c o b dup s) := by
  unfold writeText
  split
  · exact .nil
  split
  · exact .nil
  have h0 := valid_dup h dup
  dsimp only
  generalize (if dup = true then { s with needTrim := true } else s) = s0 at h0 ⊢
  rw [readText_valid h0 hn]
  split
  · exact .nil
  split
  · refine .append (.append (.cons (fun h => nomatch h) (.cons (fun h => nomatch h) .nil)) .nil) ?_
    split
    · exact .nil
    refine .cons (fun h => nomatch h) ?_
    split
    · exact .nil
    refine .append (trimLoopText_noError _ _ _ _) ?_
    split
    · exact .nil
    · unfold wroteText
      split
      · exact .nil
      · exact .cons (fun h => nomatch h) .nil
  · exact expandText_noError s0

theorem writeText_alike {c c' : Codec} {okB : Buffer → Prop} {posOk : Nat → Prop} {recLen : Buffer → Nat} (hl : LawfulCodec c okB posOk recLen)
    (hl' : LawfulCodec c' okB posOk recLen) {s s' : WState} {content content' : Bytes} {items items' : List (Option Buffer)} {b b' : Buffer} {dup : Bool} {o o' : Order}
    (hρ : Renames ρ) (hrec : ∀ x x', Similar ρ x x' → recLen x = recLen x') (h : WRel s s') (hv : Valid c s content items) (hv' : Valid c' s' content' items')
    (hit : Pairwise2 (OptR ρ) items items') (hb : Similar ρ b b') (ho : SameOrder ρ o o') (hperm : ∀ l, (o l).Perm l) (hperm' : ∀ l, (o' l).Perm l)
    (hok : ∀ x, some x ∈ items ++ [some b] → okB x) (hok' : ∀ x, some x ∈ items' ++ [some b'] → okB x) (hpos : posOk (items.length + 1))
    (hn : none ∉ items) (hn' : none ∉ items') : writeText c' o' b' dup s' = writeText c o b dup s := by
  have henc : ∀ x x', some x ∈ items ++ [some b] → some x' ∈ items' ++ [some b'] → Similar ρ x x' → EncRel c c' (items.length + 1) x x' := by
    intro x x' hx hx' hs pos hp
    have hp' := hl.posOk_mono _ _ hpos hp
    obtain ⟨r, h1, h2, _⟩ := hl.enc_dec x pos (hok x hx) hp'
    obtain ⟨r', h3, h4, _⟩ := hl'.enc_dec x' pos (hok' x' hx') hp'
    exact ⟨r, r', h1, h3, by rw [h2, h4, hrec x x' hs]⟩
  have hsp := hv.pos
  obtain ⟨d, d', e1, e2, el⟩ := henc b b' (by simp) (by simp) hb s.position (by omega)
  have e2' : c'.enc b' s'.position = some d' := by rw [h.pos]; exact e2
  unfold writeText
  rw [e1, e2', h.writeOffset]
  simp only []
  cases hoff : s.writeOffset with
  | none => rfl
  | some off =>
  have h0 := wrel_dup h dup
  have hv0 := valid_dup hv dup
  have hv0' := valid_dup hv' dup
  generalize (if dup = true then { s with needTrim := true } else s) = s0 at h0 hv0 ⊢
  generalize (if dup = true then { s' with needTrim := true } else s') = s0' at h0 hv0' ⊢
  simp only [el, h.mm]
  rw [readText_valid hv0 hn, readText_valid hv0' hn', readItems_eq hv0, readItems_eq hv0', h0.trim]
  split
  · rfl
  split
  · have hm := (MapR.intoMap hρ hit).mapStep hρ (.some hb)
    have hvals := ho _ _ hm.values
    have hmem : ∀ x ∈ o (mapStep (intoMap items).1 (some b)).values, some x ∈ items ++ [some b] := fun x hx => mem_snapshot ((hperm _).mem_iff.1 hx)
    have hmem' : ∀ x ∈ o' (mapStep (intoMap items').1 (some b')).values, some x ∈ items' ++ [some b'] := fun x hx => mem_snapshot ((hperm' _).mem_iff.1 hx)
    have hE : Pairwise2 (EncRel c c' (items.length + 1)) (o (mapStep (intoMap items).1 (some b)).values) (o' (mapStep (intoMap items').1 (some b')).values) :=
      hvals.imp fun x hx x' hx' hs => henc x x' (hmem x hx) (hmem' x' hx') hs
    have hcount : (o (mapStep (intoMap items).1 (some b)).values).length ≤ items.length + 1 := by
      rw [(hperm _).length_eq]
      have := snapshot_length items b
      simpa [KvMap.values] using this
    have hr := h0.storeLen 0
    unfold WState.reset
    generalize s0.storeLen 0 = x at hr ⊢
    generalize s0'.storeLen 0 = x' at hr ⊢
    cases hr with
    | panic _ => rfl
    | @done a a' ha =>
    simp only []
    have hz : WRel { a with position := 0 } { a' with position := 0 } :=
      ⟨ha.len, ha.head, ha.mmf, ha.big, ha.mm, ha.page, rfl, ha.trim, ha.usz, ha.quota, ha.span⟩
    have hle : ({ a with position := 0 } : WState).position + (o (mapStep (intoMap items).1 (some b)).values).length ≤ items.length + 1 + 1 := by
      simp only []; omega
    rw [trimLoopText_alike hE hz hle]
    have ht := WRel.trimLoop hE (maxLen := s.mmLen) hz hle
    generalize WState.trimLoop c s.mmLen _ _ = y at ht ⊢
    generalize WState.trimLoop c' s.mmLen _ _ = y' at ht ⊢
    cases ht with
    | panic _ => rfl
    | done ht => dsimp only; rw [wroteText_alike ht]
  · exact expandText_alike h0

/-! ### Events -/

theorem PhaseR.eq_iff {p p' q : Phase} (h : PhaseR ρ p p') (hq : ∀ j, q ≠ .push j) : p' = q ↔ p = q := by
  cases h with
  | push _ => exact ⟨fun h => absurd h.symm (hq _), fun h => absurd h.symm (hq _)⟩
  | same => exact Iff.rfl

theorem looperDropText_noError (j : Bool) (io : Looper.IoPc) : NoError (looperDropText j io) := by
  unfold looperDropText droppedText
  split
  · exact .cons (fun h => nomatch h) .nil
  split
  · exact .cons (fun h => nomatch h) (.cons (fun h => nomatch h) .nil)
  · exact .nil

theorem openText_nil_noError (c : Codec) {page : Nat} (h8 : 8 ≤ page) : NoError (openText c page [] 8 none) := by
  unfold openText
  have hv : Valid c { file := zeros page, mmLen := (zeros page).length, page := page, position := 0, needTrim := false, usizeBytes := 8, quota := none } [] [] :=
    ⟨rfl, rfl, ⟨by simp, _, zeros_eq _ h8⟩, .nil _, rfl⟩
  have hc : configNew page [] = zeros page := rfl
  rw [hc]
  dsimp only
  rw [readText_valid hv (fun h => nomatch h)]
  split
  · exact .nil
  refine .append .nil ?_
  split
  · exact .nil
  split
  · exact .nil
  · exact .cons (fun h => nomatch h) .nil

theorem openText_nil_eq (c c' : Codec) {page : Nat} (h8 : 8 ≤ page) : openText c' page [] 8 none = openText c page [] 8 none := by
  unfold openText
  have hv : ∀ c : Codec, Valid c { file := zeros page, mmLen := (zeros page).length, page := page, position := 0, needTrim := false, usizeBytes := 8, quota := none } [] [] :=
    fun c => ⟨rfl, rfl, ⟨by simp, _, zeros_eq _ h8⟩, .nil _, rfl⟩
  have hc : configNew page [] = zeros page := rfl
  rw [hc]
  dsimp only
  rw [readText_valid (hv c) (fun h => nomatch h), readText_valid (hv c') (fun h => nomatch h), readItems_eq (hv c), readItems_eq (hv c')]

/-- One event on two stores that look the same. -/
theorem stepText_alike {E : Env ι} {S0 S0' : Store} {K K' : Nat} {cs cs' : List Mutation} {s s' : Inst ι} {e e' : Ev ι}
    (hρ : Renames ρ) (hrec : ∀ x x', Similar ρ x x' → E.recLen x = E.recLen x') (h : DInv E S0 K cs s) (h' : DInv E S0' K' cs' s')
    (hR : IRel ρ E.codecs s s') (ha : EvAlike ρ e e') (he : e.Ok E) (he' : e'.Ok E)
    (hroom : E.Room (K + cs.length)) (hd : ¬ E.dirty) :
    stepText E.codecs s' e' = stepText E.codecs s e ∧ NoError (stepText E.codecs s e) := by
  have hph := hR.phase
  have hidle := PhaseR.eq_iff hph (q := .idle) (fun _ h => nomatch h)
  have hclosed := PhaseR.eq_iff hph (q := .closed) (fun _ h => nomatch h)
  cases ha with
  | put => exact ⟨rfl, .nil⟩
  | delete => exact ⟨rfl, .nil⟩
  | clear =>
    simp only [stepText, hidle, hR.poisoned, hR.valid, true_and]
    split
    · exact .cons (fun h => nomatch h) .nil
    · exact .nil
  | drop =>
    simp only [stepText, hidle, hR.joined, hR.io, true_and]
    split
    · exact .cons (fun h => nomatch h) (looperDropText_noError _ _)
    · exact .nil
  | api i i' =>
    simp only [stepText]
    have hps : (∃ j j', s.phase = .push j ∧ s'.phase = .push j') ∨ (s'.phase = s.phase) := by
      generalize s.phase = p at hph ⊢
      generalize s'.phase = p' at hph ⊢
      cases hph with
      | push _ => exact .inl ⟨_, _, rfl, rfl⟩
      | same => exact .inr rfl
    rcases hps with ⟨j, j', e1, e2⟩ | e2
    · rw [e1, e2]; exact ⟨rfl, .nil⟩
    rw [e2]
    cases hp : s.phase with
    | idle => exact ⟨rfl, .nil⟩
    | push j => exact ⟨rfl, .nil⟩
    | send => exact ⟨rfl, .nil⟩
    | clrPush => exact ⟨rfl, .nil⟩
    | clrSend => exact ⟨rfl, .nil⟩
    | clrJoin => exact ⟨rfl, .nil⟩
    | closed => exact ⟨rfl, .nil⟩
    | clrQuit =>
      have hq : (Looper.quitSend s'.lp).2 = (Looper.quitSend s.lp).2 := by
        unfold Looper.quitSend
        rw [hR.sender, hR.io]
        split
        · split <;> rfl
        · rfl
      simp only [hq, hR.joined, true_and]
      split
      · exact .cons (fun h => nomatch h) .nil
      · exact .nil
    | clrOpen =>
      have r1 := Inst.removed_of_clrOpen h.book hp
      have r2 := Inst.removed_of_clrOpen h'.book (by rw [e2, hp])
      obtain ⟨_, _, _, _, _, _, _, hw, _⟩ := h.ex
      obtain ⟨_, _, _, _, _, _, _, hw', _⟩ := h'.ex
      simp only [Inst.disk, r1, r2, if_true, h.page, h'.page, hw.usz, hw'.usz, hw.quota, hw'.quota, openStore_nil _ _ E.page8, hR.joined, hR.io]
      exact ⟨by rw [openText_nil_eq _ _ E.page8], (openText_nil_noError _ E.page8).append (looperDropText_noError _ _)⟩
  | io o o' ho =>
    simp only [stepText, hR.io]
    cases hio : s.lp.io with
    | recv =>
      simp only [hclosed, hR.chan, hR.joined, true_and]
      split
      · exact looperDropText_noError _ _
      · exact .nil
    | swap => exact ⟨rfl, .nil⟩
    | exited => exact ⟨rfl, .nil⟩
    | unwinding => exact ⟨rfl, .nil⟩
    | dead => exact ⟨rfl, .nil⟩
    | run =>
      have hbuf := hR.buf
      cases hb1 : s.lp.buf with
      | nil =>
        rw [hb1] at hbuf
        generalize s'.lp.buf = l at hbuf ⊢
        cases hbuf
        exact ⟨rfl, .nil⟩
      | cons j rest =>
      cases hb2 : s'.lp.buf with
      | nil => rw [hb1, hb2] at hbuf; cases hbuf
      | cons j' rest' =>
      rw [hb1, hb2] at hbuf
      cases hbuf with
      | cons hj _ =>
      cases hj with
      | remove => exact ⟨rfl, .cons (fun h => nomatch h) .nil⟩
      | @write b b' dup hb =>
      obtain ⟨_, _, K0, content, items, _, _, hw, hK, _, hn⟩ := h.ex
      obtain ⟨_, _, K0', content', items', _, _, hw', hK', _, hn'⟩ := h'.ex
      obtain ⟨its, its', i1, i2, hit⟩ := hR.items
      rw [readItems_eq hw.toValid] at i1
      rw [readItems_eq hw'.toValid] at i2
      injection i1 with i1
      injection i2 with i2
      subst i1 i2
      obtain ⟨m1, n1⟩ := Inst.head_job h.book hb1
      obtain ⟨m2, _⟩ := Inst.head_job h'.book hb2
      have hc := hw.count
      have : Nonempty ι := ⟨s.idx⟩
      have hr1 := hroom.mono (m := items.length + 1) (by omega)
      simp only [jobText]
      refine ⟨writeText_alike (E.lawful s.idx) (E.lawful s'.idx) hρ hrec hR.ws hw.toValid hw'.toValid hit hb ho he he' ?_ ?_ hr1.2 (fun hx => hd (hn hx)) (fun hx => hd (hn' hx)),
        writeText_noError hw.toValid (fun hx => hd (hn hx)) _ _ _⟩
      · intro x hx
        rcases List.mem_append.1 hx with hx | hx
        · exact hw.bufs x hx
        · simp only [List.mem_singleton, Option.some.injEq] at hx; subst hx; exact (h.jobsOk _ _ m1).1
      · intro x hx
        rcases List.mem_append.1 hx with hx | hx
        · exact hw'.bufs x hx
        · simp only [List.mem_singleton, Option.some.injEq] at hx; subst hx; exact (h'.jobsOk _ _ m2).1

/-- A history on two stores that look the same. -/
theorem runText_alike {E : Env ι} {S0 S0' : Store} {K K' : Nat} {es es' : List (Ev ι)} (hρ : Renames ρ)
    (hrec : ∀ x x', Similar ρ x x' → E.recLen x = E.recLen x') (hd : ¬ E.dirty) (ha : Pairwise2 (EvAlike ρ) es es') :
    ∀ {cs cs' : List Mutation} {s s' s1 : Inst ι} {rs : List (Out Unit)}, DInv E S0 K cs s → DInv E S0' K' cs' s' → IRel ρ E.codecs s s' →
      (∀ e ∈ es, e.Ok E) → (∀ e ∈ es', e.Ok E) → E.Room (K + cs.length + (calls es).length) → E.Room (K' + cs'.length + (calls es').length) →
      Inst.run E.codecs s es = some (s1, rs) → runText E.codecs s' es' = runText E.codecs s es ∧ NoError (runText E.codecs s es) := by
  induction ha with
  | nil =>
    intro cs cs' s s' s1 rs _ _ hR _ _ _ _ hs
    exact ⟨rfl, .nil⟩
  | @cons e e' es es' hab t ih =>
    intro cs cs' s s' s1 rs h h' hR hok hok' hroom hroom' hs
    have : Nonempty ι := ⟨s.idx⟩
    have hcnt : ∀ (e : Ev ι) l, (calls (e :: l)).length = e.call?.toList.length + (calls l).length := by
      intro e l
      unfold calls
      rw [List.filterMap_cons]
      cases e.call? <;> simp <;> omega
    rw [hcnt] at hroom hroom'
    simp only [Inst.run] at hs
    split at hs
    · cases hs
    rename_i s2 r hst
    split at hs
    · cases hs
    rename_i s3 rs' hrun
    have hr1 := hroom.mono (m := K + cs.length) (by omega)
    have hr2 := hroom'.mono (m := K' + cs'.length) (by omega)
    obtain ⟨s2', hst', hR2⟩ := Inst.irel_step hρ hrec h h' hR hab (hok _ List.mem_cons_self) (hok' _ List.mem_cons_self) hr1 hr2 hst
    have hd1 := (Inst.dinv_step h (hok _ List.mem_cons_self) hr1 hst).2
    have hd2 := (Inst.dinv_step h' (hok' _ List.mem_cons_self) hr2 hst').2
    obtain ⟨i1, i2⟩ := ih hd1 hd2 hR2 (fun x hx => hok x (List.mem_cons_of_mem _ hx)) (fun x hx => hok' x (List.mem_cons_of_mem _ hx))
      (by simpa [Nat.add_assoc] using hroom) (by simpa [Nat.add_assoc] using hroom') hrun
    obtain ⟨t1, t2⟩ := stepText_alike hρ hrec h h' hR hab (hok _ List.mem_cons_self) (hok' _ List.mem_cons_self) hr1 hd
    simp only [runText, hst, hst']
    exact ⟨by rw [t1, i1], t2.append i2⟩

theorem readText_position (c : Codec) (s : WState) (p : Nat) : readText c { s with position := p } = readText c s := rfl

/-- What opening logs, in terms of the store it makes. -/
theorem openText_eq {codecs : ι → Codec} {i : ι} {page : Nat} {file : Bytes} {s : Inst ι} (ho : Inst.openAt codecs i page file = some s) :
    openText (codecs i) page file = readText (codecs i) s.lp.cb.ws ++ match s.lp.cb.ws.writeOffset with
      | none => []
      | some off => [(.info, "instance initialized, read " ++ num s.kv.length ++ " items, content len " ++ num off ++
            ", file size " ++ num s.lp.cb.ws.mmLen ++ ", cost ")] := by
  unfold Inst.openAt openStore at ho
  unfold openText
  simp only [] at ho ⊢
  by_cases h0 : (configNew page file).length = 0
  · rw [if_pos h0] at ho; cases ho
  rw [if_neg h0] at ho ⊢
  split at ho
  · cases ho
  rename_i o hq
  cases ho
  split at hq
  · cases hq
  rename_i items hit
  cases hq
  rw [hit]
  rfl

theorem openText_alike {E : Env ι} {S0 S0' : Store} {K K' : Nat} {file file' : Bytes} {i i' : ι} {s s' : Inst ι} (hd : ¬ E.dirty)
    (h : DInv E S0 K [] s) (h' : DInv E S0' K' [] s') (hR : IRel ρ E.codecs s s') (hi : s.idx = i) (hi' : s'.idx = i')
    (ho : Inst.openAt E.codecs i E.page file = some s) (ho' : Inst.openAt E.codecs i' E.page file' = some s') :
    openText (E.codecs i') E.page file' = openText (E.codecs i) E.page file ∧ NoError (openText (E.codecs i) E.page file) := by
  obtain ⟨_, _, _, _, items, _, _, hw, _, _, hn⟩ := h.ex
  obtain ⟨_, _, _, _, items', _, _, hw', _, _, hn'⟩ := h'.ex
  rw [openText_eq ho, openText_eq ho', ← hi, ← hi', readText_valid hw.toValid (fun hx => hd (hn hx)), readText_valid hw'.toValid (fun hx => hd (hn' hx)),
    hR.ws.writeOffset, hR.kv.length_eq, hR.ws.mm]
  refine ⟨rfl, .append .nil ?_⟩
  split
  · exact .nil
  · exact .cons (fun h => nomatch h) .nil

/-- A session on two directories that look the same. -/
theorem sessionText_alike {E : Env ι} {es es' : List (Ev ι)} {K K' : Nat} {d d' : Dir ι} {S0 S0' : Store} {i i' : ι} {s s1 s' : Inst ι} {rs : List (Out Unit)} (hρ : Renames ρ)
    (hrec : ∀ x x', Similar ρ x x' → E.recLen x = E.recLen x') (hdirty : ¬ E.dirty) (ha : Pairwise2 (EvAlike ρ) es es') (hd : DirRel ρ E.codecs E.page d d')
    (hg : GoodDir E K d S0) (hg' : GoodDir E K' d' S0') (hi : ∀ j, d.idx = some j → i = j) (hi' : ∀ j, d'.idx = some j → i' = j)
    (hok : ∀ e ∈ es, e.Ok E) (hok' : ∀ e ∈ es', e.Ok E) (hroom : E.Room (K + (calls es).length)) (hroom' : E.Room (K' + (calls es').length))
    (ho : Inst.openAt E.codecs i E.page d.file = some s) (ho' : Inst.openAt E.codecs i' E.page d'.file = some s') (hr : Inst.run E.codecs s es = some (s1, rs)) :
    openText (E.codecs i') E.page d'.file ++ runText E.codecs s' es' = openText (E.codecs i) E.page d.file ++ runText E.codecs s es ∧
      NoError (openText (E.codecs i) E.page d.file ++ runText E.codecs s es) := by
  obtain ⟨t, ht, hinv, _⟩ := Inst.dinv_open (hg i hi)
  rw [ho] at ht
  injection ht with ht
  subst ht
  obtain ⟨t', ht', hinv', _⟩ := Inst.dinv_open (hg' i' hi')
  rw [ho'] at ht'
  injection ht' with ht'
  subst ht'
  have hR := Inst.irel_open E.page8 hρ (hd i i' hi hi') ho ho'
  have hidx : ∀ {i : ι} {file : Bytes} {s : Inst ι}, Inst.openAt E.codecs i E.page file = some s → s.idx = i := by
    intro i file s h
    unfold Inst.openAt at h
    split at h
    · cases h
    · cases h; rfl
  have hra : E.Room (K + ([] : List Mutation).length + (calls es).length) := hroom
  have hrb : E.Room (K' + ([] : List Mutation).length + (calls es').length) := hroom'
  obtain ⟨t1, t2⟩ := runText_alike hρ hrec hdirty ha hinv hinv' hR hok hok' hra hrb hr
  obtain ⟨o1, o2⟩ := openText_alike hdirty hinv hinv' hR (hidx ho) (hidx ho') ho ho'
  exact ⟨by rw [t1, o1], o2.append t2⟩

end Mmkv.CoreText
