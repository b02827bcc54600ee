import Verif.Lemmas.Codec
import Verif.Lemmas.Map
/-! Content made of whole records, and what iterating over it yields. -/

namespace Mmkv

/-- `content`, read from record position `pos`, is a sequence of whole records that decode to `items`
(`none`: a record whose framing is intact but which does not decode to a message). -/
inductive Framed (c : Codec) : Nat → Bytes → List (Option Buffer) → Prop
  | nil (pos) : Framed c pos [] []
  | cons (pos chunk content ob items) (hne : chunk ≠ [])
      (hdec : ∀ rest, c.dec (chunk ++ rest) pos = .ok ob chunk.length)
      (htail : Framed c (pos + 1) content items) :
      Framed c pos (chunk ++ content) (ob :: items)

variable {c : Codec}

theorem Framed.iter {pos content items} (h : Framed c pos content items) :
    ∀ fuel, content.length ≤ fuel → iterLoop c fuel pos content = some items := by
  induction h with
  | nil pos => intro fuel _; cases fuel <;> rfl
  | cons pos chunk content ob items hne hdec _ ih =>
    intro fuel hf
    have hpos : 0 < chunk.length := List.length_pos_iff.2 hne
    simp only [List.length_append] at hf
    cases fuel with
    | zero => omega
    | succ fuel =>
      cases hcc : chunk ++ content with
      | nil => simp [hne] at hcc
      | cons b bs =>
        unfold iterLoop
        rw [← hcc, hdec content]
        simp only [List.drop_left]
        rw [ih fuel (by omega)]
        rfl

theorem Framed.append {pos a xs b ys} (ha : Framed c pos a xs) (hb : Framed c (pos + xs.length) b ys) :
    Framed c pos (a ++ b) (xs ++ ys) := by
  induction ha with
  | nil pos => simpa using hb
  | cons pos chunk content ob items hne hdec _ ih =>
    rw [List.append_assoc]
    refine .cons _ _ _ _ _ hne hdec (ih ?_)
    simpa [Nat.add_assoc, Nat.add_comm 1] using hb

theorem Framed.single {pos chunk ob} (hne : chunk ≠ [])
    (hdec : ∀ rest, c.dec (chunk ++ rest) pos = .ok ob chunk.length) : Framed c pos chunk [ob] := by
  have := Framed.cons (c := c) pos chunk [] ob [] hne hdec (.nil _)
  simpa using this

/-- Splitting framed content after its first records. -/
theorem Framed.split {pos content items} (h : Framed c pos content items) (n : Nat) (hn : n ≤ items.length) :
    ∃ a b, content = a ++ b ∧ Framed c pos a (items.take n) ∧ Framed c (pos + n) b (items.drop n) := by
  induction h generalizing n with
  | nil pos => simp at hn; subst hn; exact ⟨[], [], rfl, .nil _, by simpa using .nil _⟩
  | cons pos chunk content ob items hne hdec htail ih =>
    cases n with
    | zero => exact ⟨[], chunk ++ content, rfl, by simpa using .nil _, by simpa using .cons _ _ _ _ _ hne hdec htail⟩
    | succ n =>
      obtain ⟨a, b, rfl, ha, hb⟩ := ih n (by simpa using hn)
      refine ⟨chunk ++ a, b, by simp, ?_, ?_⟩
      · simpa using .cons _ _ _ _ _ hne hdec ha
      · have : pos + (n + 1) = pos + 1 + n := by omega
        simpa [this] using hb

/-- Iteration that reaches the end of the content only succeeds on whole records. -/
theorem framed_of_iter {okB posOk recLen} (hl : LawfulCodec c okB posOk recLen) :
    ∀ fuel pos content items, iterLoop c fuel pos content = some items → Framed c pos content items := by
  intro fuel
  induction fuel with
  | zero =>
    intro pos content items h
    cases content with
    | nil => simp [iterLoop] at h; subst h; exact .nil _
    | cons b bs => simp [iterLoop] at h
  | succ fuel ih =>
    intro pos content items h
    cases content with
    | nil => simp [iterLoop] at h; subst h; exact .nil _
    | cons b bs =>
      unfold iterLoop at h
      cases hd : c.dec (b :: bs) pos with
      | panic => simp [hd] at h
      | err e => exact absurd hd (hl.dec_no_err _ _ _)
      | ok ob len =>
        simp only [hd] at h
        obtain ⟨hpos, hle, hloc⟩ := hl.dec_local _ _ _ _ hd
        cases hi : iterLoop c fuel (pos + 1) ((b :: bs).drop len) with
        | none => simp [hi] at h
        | some items' =>
          simp only [hi, Option.map_some, Option.some.injEq] at h
          subst h
          have hlen : ((b :: bs).take len).length = len := by rw [List.length_take]; omega
          have := Framed.cons (c := c) pos ((b :: bs).take len) ((b :: bs).drop len) ob items'
            (by intro h0; rw [h0] at hlen; simp at hlen; omega)
            (by intro rest; rw [hlen]; exact hloc rest)
            (ih _ _ _ hi)
          rwa [List.take_append_drop] at this

/-- The record of `b` at `pos` frames. -/
theorem framed_enc {okB posOk recLen} (hl : LawfulCodec c okB posOk recLen) (b : Buffer) (pos : Nat)
    (h : okB b) (hp : posOk pos) :
    ∃ r, c.enc b pos = some r ∧ r.length = recLen b ∧ Framed c pos r [some b] := by
  obtain ⟨r, hr, hlen, hdec⟩ := hl.enc_dec b pos h hp
  refine ⟨r, hr, hlen, Framed.single ?_ hdec⟩
  intro h0
  have := hl.recLen_pos b
  rw [h0] at hlen; simp at hlen; omega

end Mmkv
