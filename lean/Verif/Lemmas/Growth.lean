import Verif.Lemmas.Writer
/-! How the length of the file changes, for every write on every state: no assumption on the codec, the content of the
file, the record or the disk. -/

namespace Mmkv
variable {c : Codec}

/-- `s'` is `s` after some changes of the file that made it longer by exactly `n` pages. -/
structure Grown (s s' : WState) (n : Nat) : Prop where
  len : s'.file.length = s.file.length + n * s.page
  mm : s'.mmLen = s'.file.length
  conf : SameConf s s'

theorem Grown.refl' {s : WState} (h : s.mmLen = s.file.length) : Grown s s 0 := ⟨by omega, h, SameConf.rfl'⟩

theorem Grown.trans {a b d : WState} {n m : Nat} (h : Grown a b n) (h' : Grown b d m) : Grown a d (n + m) := by
  refine ⟨?_, h'.mm, h.conf.trans h'.conf⟩
  rw [h'.len, h.len, h.conf.page, Nat.add_mul]; omega

theorem grown_store {s : WState} (h : s.mmLen = s.file.length) (off : Nat) (bs : Bytes) : Grown s (s.store off bs).state 0 := by
  unfold WState.store
  split
  · rename_i hf
    have := splice_length s.file off bs (by omega)
    exact ⟨by simp only [Run.state_done]; omega, by simp only [Run.state_done]; omega, ⟨rfl, rfl, rfl⟩⟩
  · exact .refl' h

theorem grown_storeLen {s : WState} (h : s.mmLen = s.file.length) (len : Nat) : Grown s (s.storeLen len).state 0 := by
  unfold WState.storeLen
  split
  · exact .refl' h
  · exact grown_store h _ _

theorem grown_andThen {s : WState} {r : Run WState} {f : WState → Run WState} (hr : ∃ n, Grown s r.state n)
    (hf : ∀ s1, r = .done s1 → s1.mmLen = s1.file.length → ∃ m, Grown s1 (f s1).state m) : ∃ m, Grown s (r.andThen f).state m := by
  obtain ⟨n, hr⟩ := hr
  cases r with
  | panic s1 => exact ⟨n, hr⟩
  | done s1 =>
    obtain ⟨m, hm⟩ := hf s1 rfl hr.mm
    exact ⟨n + m, hr.trans hm⟩

theorem grown_andThen0 {s : WState} {r : Run WState} {f : WState → Run WState} (hr : Grown s r.state 0)
    (hf : ∀ s1, r = .done s1 → Grown s1 (f s1).state 0) : Grown s (r.andThen f).state 0 := by
  cases r with
  | panic s1 => exact hr
  | done s1 => exact hr.trans (hf s1 rfl)

theorem grown_append {s : WState} (h : s.mmLen = s.file.length) (v : Bytes) : Grown s (s.append v).state 0 := by
  unfold WState.append
  split
  · exact .refl' h
  · rename_i start _
    exact grown_andThen0 (grown_storeLen h _) fun s1 h1 => grown_store (by
      have := (grown_storeLen h (v.length + (start - WState.lenOffset))).mm; rw [h1] at this; exact this) _ _

theorem grown_appendPos {s : WState} (h : s.mmLen = s.file.length) (v : Bytes) :
    Grown s ((s.append v).andThen fun s => .done { s with position := s.position + 1 }).state 0 :=
  grown_andThen0 (grown_append h v) fun s1 h1 =>
    ⟨by simp, by have := (grown_append h v).mm; rw [h1] at this; exact this, ⟨rfl, rfl, rfl⟩⟩

theorem grown_expand {s : WState} (h : s.mmLen = s.file.length) :
    (s.expand.isDone = true ∧ Grown s s.expand.state 1) ∨ (s.expand.isDone = false ∧ Grown s s.expand.state 0) := by
  unfold WState.expand
  simp only []
  split
  · exact .inl ⟨rfl, by simp [zeros], by simp [zeros], ⟨rfl, rfl, rfl⟩⟩
  · exact .inr ⟨rfl, .refl' h⟩

theorem grown_trimLoop (maxLen : Nat) : ∀ (bs : List Buffer) (s : WState), s.mmLen = s.file.length →
    ∃ n ≤ bs.length, Grown s (WState.trimLoop c maxLen bs s).state n
  | [], s, h => ⟨0, by simp, .refl' h⟩
  | b :: rest, s, h => by
    unfold WState.trimLoop
    split
    · exact ⟨0, by omega, .refl' h⟩
    rename_i bytes _
    split
    · exact ⟨0, by omega, .refl' h⟩
    rename_i off _
    -- the optional expansion
    have hstep : ∃ k ≤ 1, Grown s (if off + bytes.length > maxLen then s.expand else .done s).state k := by
      split
      · rcases grown_expand h with ⟨_, hg⟩ | ⟨_, hg⟩
        · exact ⟨1, by omega, hg⟩
        · exact ⟨0, by omega, hg⟩
      · exact ⟨0, by omega, .refl' h⟩
    obtain ⟨k, hk, hg⟩ := hstep
    generalize (if off + bytes.length > maxLen then s.expand else .done s) = r at hg
    cases r with
    | panic s1 => exact ⟨k, by simp; omega, hg⟩
    | done s1 =>
      simp only [Run.andThen_done]
      have hg2 := grown_appendPos hg.mm bytes
      simp only [Run.state_done] at hg hg2
      generalize ((s1.append bytes).andThen fun s => .done { s with position := s.position + 1 }) = r2 at hg2
      cases r2 with
      | panic s2 => exact ⟨k + 0, by simp; omega, hg.trans hg2⟩
      | done s2 =>
        simp only [Run.andThen_done]
        obtain ⟨n, hn, hg3⟩ := grown_trimLoop maxLen rest s2 hg2.mm
        exact ⟨k + 0 + n, by simp; omega, (hg.trans hg2).trans hg3⟩

theorem Grown.of_state {s s1 s' : WState} {n : Nat} (hf : s1.file = s.file) (hp : SameConf s s1) (h : Grown s1 s' n) : Grown s s' n :=
  ⟨by rw [h.len, hf, hp.page], h.mm, hp.trans h.conf⟩

/-- Every write, finished or not, makes the file longer by a whole number of pages (possibly none). -/
theorem grown_write (order : List Buffer → List Buffer) (b : Buffer) (dup : Bool) {s : WState} (h : s.mmLen = s.file.length) :
    ∃ n, Grown s (WState.write c order b dup s).state n := by
  unfold WState.write
  split
  · exact ⟨0, .refl' h⟩
  rename_i data _
  split
  · exact ⟨0, .refl' h⟩
  rename_i off _
  simp only []
  generalize hs0 : (if dup = true then { s with needTrim := true } else s) = s0
  have hf : s0.file = s.file := by rw [← hs0]; split <;> rfl
  have hc : SameConf s s0 := by rw [← hs0]; split <;> exact ⟨rfl, rfl, rfl⟩
  have hm : s0.mmLen = s0.file.length := by rw [hf, ← h, ← hs0]; split <;> rfl
  have lift : ∀ {s' : WState}, (∃ n, Grown s0 s' n) → ∃ n, Grown s s' n := fun ⟨n, hn⟩ => ⟨n, hn.of_state hf hc⟩
  apply lift
  split
  · exact ⟨0, grown_appendPos hm data⟩
  split
  · split
    · exact ⟨0, .refl' hm⟩
    · rename_i items _
      refine grown_andThen (grown_andThen ⟨0, grown_storeLen hm _⟩ fun s1 _ h1 => ?_) fun s1 _ h1 =>
        ⟨0, by simp, h1, ⟨rfl, rfl, rfl⟩⟩
      obtain ⟨n, _, hg⟩ := grown_trimLoop (c := c) s.mmLen (order (mapStep (intoMap items).1 (some b)).values) { s1 with position := 0 } h1
      exact ⟨n, Grown.of_state (s := s1) (s1 := { s1 with position := 0 }) rfl ⟨rfl, rfl, rfl⟩ hg⟩
  · refine grown_andThen (grown_andThen ?_ fun s1 _ h1 => ⟨0, grown_append h1 data⟩) fun s1 _ h1 => ⟨0, by simp, h1, ⟨rfl, rfl, rfl⟩⟩
    rcases grown_expand hm with ⟨_, hg⟩ | ⟨_, hg⟩
    · exact ⟨1, hg⟩
    · exact ⟨0, hg⟩


/-- A record that fits leaves the length of the file alone. -/
theorem grown_write_fits (order : List Buffer → List Buffer) (b : Buffer) (dup : Bool) {s : WState} (h : s.mmLen = s.file.length)
    {data : Bytes} {off : Nat} (hd : c.enc b s.position = some data) (ho : s.writeOffset = some off)
    (hfit : data.length + off ≤ s.file.length) : Grown s (WState.write c order b dup s).state 0 := by
  unfold WState.write
  rw [hd]
  simp only [ho]
  generalize hs0 : (if dup = true then { s with needTrim := true } else s) = s0
  have hf : s0.file = s.file := by rw [← hs0]; split <;> rfl
  have hc : SameConf s s0 := by rw [← hs0]; split <;> exact ⟨rfl, rfl, rfl⟩
  have hm : s0.mmLen = s0.file.length := by rw [hf, ← h, ← hs0]; split <;> rfl
  rw [if_pos (by omega)]
  exact (grown_appendPos hm data).of_state hf hc

/-- A record that does not fit, when no compaction is due: one page more, unless the system refused it. -/
theorem grown_write_expand (order : List Buffer → List Buffer) (b : Buffer) {s : WState} (h : s.mmLen = s.file.length)
    {data : Bytes} {off : Nat} (hd : c.enc b s.position = some data) (ho : s.writeOffset = some off)
    (hfit : s.file.length < data.length + off) (hnt : s.needTrim = false) :
    (s.expand.isDone = true ∧ Grown s (WState.write c order b false s).state 1) ∨
    (s.expand.isDone = false ∧ WState.write c order b false s = .panic s) := by
  unfold WState.write
  rw [hd]
  simp only [ho]
  have hif : (if false = true then { s with needTrim := true } else s) = s := rfl
  rw [hif, if_neg (by omega), hnt]
  simp only [Bool.false_eq_true, if_false]
  rcases grown_expand h with ⟨hd, hg⟩ | ⟨hd, hg⟩
  · left
    refine ⟨hd, ?_⟩
    cases he : s.expand with
    | panic s1 => rw [he] at hd; cases hd
    | done s1 =>
      rw [he] at hg
      simp only [Run.state_done] at hg
      simp only [Run.andThen_done]
      exact hg.trans (grown_appendPos hg.mm data)
  · right
    refine ⟨hd, ?_⟩
    have : s.expand = .panic s := by
      unfold WState.expand at hd ⊢
      simp only [] at hd ⊢
      split at hd
      · cases hd
      · rename_i hq; rw [if_neg hq]
    rw [this]; rfl

end Mmkv
