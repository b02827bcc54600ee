import Verif.Model.JniString
import Verif.Lemmas.Bytes
import Verif.Props.Bindings
/-!
# Facts about the string conversions between Kotlin and Rust
-/

namespace Mmkv.Jni

set_option linter.unusedSimpArgs false

theorem char_val (c : Char) : c.toNat < 0xD800 ∨ (0xDFFF < c.toNat ∧ c.toNat < 0x110000) := by
  exact c.valid

theorem toNat8 {n : Nat} (h : n < 256) : (UInt8.ofNat n).toNat = n := by
  simp [UInt8.toNat_ofNat']; omega

theorem toNat16 {n : Nat} (h : n < 65536) : (UInt16.ofNat n).toNat = n := by
  simp [UInt16.toNat_ofNat']; omega

theorem utf8_four {c : Char} (h : 0x10000 ≤ c.toNat) : String.utf8EncodeChar c = fourBytes c.toNat := by
  have hv := char_val c
  unfold String.utf8EncodeChar fourBytes
  simp only [Char.toNat_val]
  rw [if_neg (by omega), if_neg (by omega), if_neg (by omega)]
  have h1 : c.toNat / 262144 % 8 = c.toNat / 262144 := by omega
  rw [h1]

/-- A unit that is no surrogate and not zero: its modified UTF-8 is UTF-8. -/
theorem utf8_unit {c : Char} (h0 : c.toNat ≠ 0) (h : c.toNat < 0x10000) :
    String.utf8EncodeChar c = unitBytes (.ofNat c.toNat) := by
  unfold String.utf8EncodeChar unitBytes
  simp only [Char.toNat_val, toNat16 h]
  by_cases h1 : c.toNat ≤ 0x7F
  · rw [if_pos h1, if_pos ⟨by omega, h1⟩]
  · rw [if_neg h1, if_neg (show ¬(0 < c.toNat ∧ c.toNat ≤ 0x7F) by omega)]
    by_cases h2 : c.toNat ≤ 0x7FF
    · rw [if_pos h2, if_pos h2]
      have : c.toNat / 64 % 32 = c.toNat / 64 := by omega
      rw [this]
    · rw [if_neg h2, if_neg h2, if_pos (by omega)]
      have : c.toNat / 4096 % 16 = c.toNat / 4096 := by omega
      rw [this]

theorem utfChars_cons_spec (u : UInt16) (js : JStr) : utfChars .spec (u :: js) = unitBytes u ++ utfChars .spec js := by
  cases js with
  | nil => simp [utfChars]
  | cons w rest => simp [utfChars]

/-- A unit that does not begin a pair is written alone. -/
theorem utfChars_cons (vm : Vm) (u : UInt16) (js : JStr)
    (h : isHigh u = false ∨ ∀ w rest, js = w :: rest → isLow w = false) :
    utfChars vm (u :: js) = unitBytes u ++ utfChars vm js := by
  cases js with
  | nil => simp [utfChars]
  | cons w rest =>
    rw [utfChars, if_neg]
    rintro ⟨_, h1, h2⟩
    rcases h with h | h
    · rw [h] at h1; cases h1
    · rw [h w rest rfl] at h2; cases h2

/-- The bytes a Java machine writes for a character. -/
def charBytes (vm : Vm) (c : Char) : Bytes :=
  let v := c.toNat
  if v < 0x10000 then unitBytes (.ofNat v)
  else match vm with
    | .art => fourBytes v
    | .spec => unitBytes (.ofNat (0xD800 + (v - 0x10000) / 0x400)) ++ unitBytes (.ofNat (0xDC00 + (v - 0x10000) % 0x400))

theorem utfChars_char (vm : Vm) (c : Char) (js : JStr) :
    utfChars vm (utf16Char c ++ js) = charBytes vm c ++ utfChars vm js := by
  have hv := char_val c
  unfold utf16Char charBytes
  simp only
  by_cases h : c.toNat < 0x10000
  · rw [if_pos h, if_pos h]
    exact utfChars_cons vm _ js (Or.inl (by simp only [isHigh, toNat16 h]; simp only [Bool.and_eq_true, Bool.or_eq_true, decide_eq_true_eq, beq_iff_eq, Bool.and_eq_false_iff, decide_eq_false_iff_not]; omega))
  · rw [if_neg h, if_neg h]
    cases vm with
    | spec => simp [utfChars_cons_spec]
    | art =>
      have e1 : (UInt16.ofNat (0xD800 + (c.toNat - 0x10000) / 0x400)).toNat =
          0xD800 + (c.toNat - 0x10000) / 0x400 := toNat16 (by omega)
      have e2 : (UInt16.ofNat (0xDC00 + (c.toNat - 0x10000) % 0x400)).toNat =
          0xDC00 + (c.toNat - 0x10000) % 0x400 := toNat16 (by omega)
      simp only [List.cons_append, List.nil_append]
      rw [utfChars, if_pos]
      · have hp : pairValue (UInt16.ofNat (0xD800 + (c.toNat - 0x10000) / 0x400))
            (UInt16.ofNat (0xDC00 + (c.toNat - 0x10000) % 0x400)) = c.toNat := by
          unfold pairValue
          rw [e1, e2]
          omega
        rw [hp]
      · refine ⟨rfl, ?_, ?_⟩
        · simp only [isHigh, e1]; simp only [Bool.and_eq_true, Bool.or_eq_true, decide_eq_true_eq, beq_iff_eq, Bool.and_eq_false_iff, decide_eq_false_iff_not]; omega
        · simp only [isLow, e2]; simp only [Bool.and_eq_true, Bool.or_eq_true, decide_eq_true_eq, beq_iff_eq, Bool.and_eq_false_iff, decide_eq_false_iff_not]; omega

theorem utfChars_text (vm : Vm) (l : List Char) (js : JStr) :
    utfChars vm (l.flatMap utf16Char ++ js) = l.flatMap (charBytes vm) ++ utfChars vm js := by
  induction l with
  | nil => rfl
  | cons c l ih => simp only [List.flatMap_cons, List.append_assoc, utfChars_char, ih]

theorem utfChars_utf16 (vm : Vm) (s : String) : utfChars vm (utf16 s) = s.toList.flatMap (charBytes vm) := by
  have := utfChars_text vm s.toList []
  simpa [utf16, utfChars] using this

/-! ### `cesuDecode` -/

/-- A unit that is no surrogate is decoded to its UTF-8. -/
theorem cesu_unit (c : Char) (h : c.toNat < 0x10000) (tl : Bytes) :
    cesuDecode (unitBytes (.ofNat c.toNat) ++ tl) = (cesuDecode tl).map (String.utf8EncodeChar c ++ ·) := by
  have hv := char_val c
  by_cases h0 : c.toNat = 0
  · have hc : String.utf8EncodeChar c = [0] := by
      unfold String.utf8EncodeChar; simp only [Char.toNat_val, h0]; rfl
    rw [hc, h0]
    have hu : unitBytes (UInt16.ofNat 0) = [0xC0, 0x80] := by decide
    rw [hu, List.cons_append, cesuDecode.eq_def]
    dsimp only
    rw [if_neg (by decide), if_neg (by decide), if_pos (by decide)]
    simp only [List.cons_append, List.nil_append]
    rw [if_pos (by decide)]
  rw [utf8_unit h0 h]
  unfold unitBytes
  simp only [toNat16 h]
  by_cases h1 : c.toNat ≤ 0x7F
  · rw [if_pos ⟨by omega, h1⟩]
    simp only [List.cons_append, List.nil_append]
    rw [cesuDecode.eq_def]; dsimp only; rw [toNat8 (by omega), if_neg h0, if_pos (by omega)]
  rw [if_neg (by omega)]
  by_cases h2 : c.toNat ≤ 0x7FF
  · rw [if_pos h2]
    simp only [List.cons_append, List.nil_append]
    rw [cesuDecode.eq_def]; dsimp only; rw [toNat8 (by omega), if_neg (by omega), if_neg (by omega), if_neg (by omega), if_pos (by omega)]
    simp only [cont, toNat8 (show c.toNat % 64 + 128 < 256 by omega)]
    rw [if_pos (by simp; omega)]
    rfl
  · rw [if_neg h2]
    simp only [List.cons_append, List.nil_append]
    rw [cesuDecode.eq_def]; dsimp only; rw [toNat8 (by omega), if_neg (by omega), if_neg (by omega), if_neg (by omega), if_neg (by omega),
      if_pos (by omega)]
    rw [if_pos, if_pos]
    · rfl
    · simp only [second3, cont, toNat8 (show c.toNat / 64 % 64 + 128 < 256 by omega),
        toNat8 (show c.toNat / 4096 + 224 < 256 by omega)]
      simp only [Bool.and_eq_true, Bool.or_eq_true, decide_eq_true_eq, beq_iff_eq, Bool.and_eq_false_iff, decide_eq_false_iff_not]
      omega
    · simp only [cont, toNat8 (show c.toNat / 64 % 64 + 128 < 256 by omega),
        toNat8 (show c.toNat % 64 + 128 < 256 by omega)]
      simp only [Bool.and_eq_true, Bool.or_eq_true, decide_eq_true_eq, beq_iff_eq, Bool.and_eq_false_iff, decide_eq_false_iff_not]
      omega

/-- A surrogate pair in six bytes is decoded to the four bytes of its character. -/
theorem cesu_pair (c : Char) (h : ¬ c.toNat < 0x10000) (tl : Bytes) :
    cesuDecode (charBytes .spec c ++ tl) = (cesuDecode tl).map (String.utf8EncodeChar c ++ ·) := by
  have hv := char_val c
  rw [utf8_four (by omega)]
  unfold charBytes
  simp only
  rw [if_neg h]
  generalize hx : (c.toNat - 0x10000) / 0x400 = x
  generalize hy : (c.toNat - 0x10000) % 0x400 = y
  have hx' : x < 0x400 := by omega
  have hy' : y < 0x400 := by omega
  have e1 : (UInt16.ofNat (0xD800 + x)).toNat = 0xD800 + x := toNat16 (by omega)
  have e2 : (UInt16.ofNat (0xDC00 + y)).toNat = 0xDC00 + y := toNat16 (by omega)
  unfold unitBytes
  simp only [e1, e2]
  rw [if_neg (by omega), if_neg (by omega), if_neg (by omega), if_neg (by omega)]
  simp only [List.cons_append, List.nil_append]
  have t1 := toNat8 (show (0xD800 + x) / 4096 + 224 < 256 by omega)
  have t2 := toNat8 (show (0xD800 + x) / 64 % 64 + 128 < 256 by omega)
  have t3 := toNat8 (show (0xD800 + x) % 64 + 128 < 256 by omega)
  have t4 := toNat8 (show (0xDC00 + y) / 4096 + 224 < 256 by omega)
  have t5 := toNat8 (show (0xDC00 + y) / 64 % 64 + 128 < 256 by omega)
  have t6 := toNat8 (show (0xDC00 + y) % 64 + 128 < 256 by omega)
  rw [cesuDecode.eq_def]; dsimp only; rw [t1, if_neg (by omega), if_neg (by omega), if_neg (by omega), if_neg (by omega), if_pos (by omega)]
  rw [if_pos (by simp only [cont, t2, t3]; simp only [Bool.and_eq_true, Bool.or_eq_true, decide_eq_true_eq, beq_iff_eq, Bool.and_eq_false_iff, decide_eq_false_iff_not]; omega),
    if_neg (by simp only [second3, cont, t1, t2]; simp only [Bool.and_eq_true, Bool.or_eq_true, decide_eq_true_eq, beq_iff_eq, Bool.and_eq_false_iff, decide_eq_false_iff_not]; omega), if_pos (by rw [t2]; omega)]
  rw [if_pos (by refine ⟨by rw [t4]; omega, by rw [t5]; omega, by rw [t5]; omega, ?_⟩; simp only [cont, t6]; simp only [Bool.and_eq_true, Bool.or_eq_true, decide_eq_true_eq, beq_iff_eq, Bool.and_eq_false_iff, decide_eq_false_iff_not]; omega)]
  have hd : decSurrogates (UInt8.ofNat ((0xD800 + x) / 64 % 64 + 128)) (UInt8.ofNat ((0xD800 + x) % 64 + 128))
      (UInt8.ofNat ((0xDC00 + y) / 64 % 64 + 128)) (UInt8.ofNat ((0xDC00 + y) % 64 + 128)) = fourBytes c.toNat := by
    unfold decSurrogates
    dsimp only
    rw [t2, t3, t5, t6]
    have hn : 0x10000 + (0xD000 + ((0xD800 + x) / 64 % 64 + 128) % 64 * 64 + ((0xD800 + x) % 64 + 128) % 64 - 0xD800) * 0x400 +
        (0xD000 + ((0xDC00 + y) / 64 % 64 + 128) % 64 * 64 + ((0xDC00 + y) % 64 + 128) % 64 - 0xDC00) = c.toNat := by omega
    rw [hn]
  rw [hd]

theorem cesu_char (c : Char) (tl : Bytes) :
    cesuDecode (charBytes .spec c ++ tl) = (cesuDecode tl).map (String.utf8EncodeChar c ++ ·) := by
  by_cases h : c.toNat < 0x10000
  · have : charBytes .spec c = unitBytes (.ofNat c.toNat) := by unfold charBytes; simp only; rw [if_pos h]
    rw [this]
    exact cesu_unit c h tl
  · exact cesu_pair c h tl

theorem cesu_text (l : List Char) :
    cesuDecode (l.flatMap (charBytes .spec)) = some (l.flatMap String.utf8EncodeChar) := by
  induction l with
  | nil => rfl
  | cons c l ih => rw [List.flatMap_cons, cesu_char, ih]; rfl

/-- A four-byte lead is an error. -/
theorem cesu_four (v : Nat) (h : v < 0x110000) (tl : Bytes) : cesuDecode (fourBytes v ++ tl) = none := by
  unfold fourBytes
  simp only [List.cons_append, List.nil_append]
  rw [cesuDecode.eq_def]; dsimp only; rw [toNat8 (by omega), if_neg (by omega), if_neg (by omega), if_neg (by omega), if_neg (by omega),
    if_neg (by omega)]

/-- On UTF-8 the decoder changes nothing, if it does not fail. -/
theorem cesu_utf8 (l : List Char) (out : Bytes) (h : cesuDecode (l.flatMap String.utf8EncodeChar) = some out) :
    out = l.flatMap String.utf8EncodeChar := by
  induction l generalizing out with
  | nil => simpa [cesuDecode] using h.symm
  | cons c l ih =>
    have hv := char_val c
    rw [List.flatMap_cons] at h ⊢
    by_cases h0 : c.toNat = 0
    · have hc : String.utf8EncodeChar c = [0] := by unfold String.utf8EncodeChar; simp only [Char.toNat_val, h0]; rfl
      rw [hc] at h
      rw [List.cons_append, cesuDecode.eq_def] at h; dsimp only at h; rw [if_pos (by decide)] at h; cases h
    by_cases h1 : c.toNat < 0x10000
    · rw [utf8_unit h0 h1, cesu_unit c h1] at h
      cases hd : cesuDecode (l.flatMap String.utf8EncodeChar) with
      | none => rw [hd] at h; cases h
      | some o => rw [hd] at h; simp only [Option.map_some, Option.some.injEq] at h; rw [← h, ih o hd]
    · rw [utf8_four (by omega), cesu_four _ (by omega)] at h
      cases h

/-- What a machine that follows the specification writes for a text is read back as that text. -/
theorem javaStr_spec (l : List Char) : javaStr (l.flatMap (charBytes .spec)) = .ok (String.ofList l) := by
  unfold javaStr
  cases hs : strOfBytes (l.flatMap (charBytes .spec)) with
  | some s =>
    have hb := strBytes_of_strOfBytes hs
    have hs' : strBytes s = s.toList.flatMap String.utf8EncodeChar := by rw [← strBytes_ofList, String.ofList_toList]
    have hd := cesu_text l
    rw [← hb, hs'] at hd
    have := cesu_utf8 _ _ hd
    have h2 : strBytes s = strBytes (String.ofList l) := by rw [strBytes_ofList, hs', ← this]
    simp only [Out.ok.injEq]
    exact strBytes_inj h2
  | none =>
    simp only [cesu_text, ← strBytes_ofList, strOfBytes_strBytes]

/-! ### Any Kotlin string -/

/-- A surrogate. -/
def isSurr (u : UInt16) : Bool := isHigh u || isLow u

theorem exists_char {n : Nat} (h : n < 0xD800 ∨ (0xDFFF < n ∧ n < 0x110000)) : ∃ c : Char, c.toNat = n := by
  have hn : (UInt32.ofNat n).toNat = n := by simp only [UInt32.toNat_ofNat']; omega
  have hv : (UInt32.ofNat n).isValidChar := by
    show (UInt32.ofNat n).toNat.isValidChar
    rw [hn]
    exact h
  exact ⟨⟨UInt32.ofNat n, hv⟩, hn⟩

/-- Every Kotlin string is empty, or starts with a character, or starts with an unpaired surrogate. -/
theorem jstr_cases (js : JStr) : js = [] ∨ (∃ c rest, js = utf16Char c ++ rest) ∨
    ∃ u rest, js = u :: rest ∧ (isLow u = true ∨ isHigh u = true ∧ ∀ w r, rest = w :: r → isLow w = false) := by
  cases js with
  | nil => exact Or.inl rfl
  | cons u rest =>
    right
    have hu := u.toNat_lt
    by_cases hs : u.toNat < 0xD800 ∨ 0xDFFF < u.toNat
    · left
      obtain ⟨c, hc⟩ := exists_char (n := u.toNat) (by omega)
      refine ⟨c, rest, ?_⟩
      unfold utf16Char
      dsimp only
      rw [hc, if_pos (by omega)]
      simp
    · by_cases hl : isLow u = true
      · exact Or.inr ⟨u, rest, rfl, Or.inl hl⟩
      · have hh : isHigh u = true := by
          simp only [isLow, isHigh, Bool.and_eq_true, decide_eq_true_eq] at hl ⊢
          omega
        cases rest with
        | nil => exact Or.inr ⟨u, [], rfl, Or.inr ⟨hh, by simp⟩⟩
        | cons w rest =>
          by_cases hw : isLow w = true
          · left
            have h1 : 0xD800 ≤ u.toNat ∧ u.toNat ≤ 0xDBFF := by simpa only [isHigh, Bool.and_eq_true, decide_eq_true_eq] using hh
            have h2 : 0xDC00 ≤ w.toNat ∧ w.toNat ≤ 0xDFFF := by simpa only [isLow, Bool.and_eq_true, decide_eq_true_eq] using hw
            have hv : 0x10000 ≤ pairValue u w ∧ pairValue u w < 0x110000 := by unfold pairValue; omega
            obtain ⟨c, hc⟩ := exists_char (n := pairValue u w) (by omega)
            refine ⟨c, rest, ?_⟩
            unfold utf16Char
            dsimp only
            rw [hc, if_neg (by omega)]
            have e1 : 0xD800 + (pairValue u w - 0x10000) / 0x400 = u.toNat := by unfold pairValue; omega
            have e2 : 0xDC00 + (pairValue u w - 0x10000) % 0x400 = w.toNat := by unfold pairValue; omega
            rw [e1, e2]
            simp
          · exact Or.inr ⟨u, w :: rest, rfl, Or.inr ⟨hh, by
              intro w' r h
              cases h
              simpa using hw⟩⟩

/-- The three bytes of a surrogate. -/
theorem surr_bytes {u : UInt16} (h : 0xD800 ≤ u.toNat ∧ u.toNat ≤ 0xDFFF) :
    ∃ c d : UInt8, unitBytes u = [0xED, c, d] ∧ c.toNat = u.toNat / 64 % 64 + 128 ∧ cont c = true ∧ cont d = true := by
  refine ⟨.ofNat (u.toNat / 64 % 64 + 0x80), .ofNat (u.toNat % 64 + 0x80), ?_, toNat8 (by omega), ?_, ?_⟩
  · unfold unitBytes
    dsimp only
    rw [if_neg (by omega), if_neg (by omega)]
    have : u.toNat / 4096 + 0xE0 = 0xED := by omega
    rw [this]
    rfl
  · simp only [cont, toNat8 (show u.toNat / 64 % 64 + 0x80 < 256 by omega), Bool.and_eq_true, decide_eq_true_eq]
    omega
  · simp only [cont, toNat8 (show u.toNat % 64 + 0x80 < 256 by omega), Bool.and_eq_true, decide_eq_true_eq]
    omega

theorem cesu_surr {c d : UInt8} (hc : cont c = true) (hd : cont d = true) (h : 0xA0 ≤ c.toNat) (tl : Bytes) :
    cesuDecode (0xED :: c :: d :: tl) = if c.toNat ≤ 0xAF then
        match tl with
        | e :: f :: g :: rest =>
          if e.toNat = 0xED ∧ 0xB0 ≤ f.toNat ∧ f.toNat ≤ 0xBF ∧ cont g then
            (cesuDecode rest).map (decSurrogates c d f g ++ ·)
          else none
        | _ => none
      else none := by
  rw [cesuDecode.eq_def]
  dsimp only
  rw [if_neg (by decide), if_neg (by decide), if_neg (by decide), if_neg (by decide), if_pos (by decide),
    if_pos (by rw [hc, hd]; rfl), if_neg (by
      simp only [second3, Bool.and_eq_true, Bool.or_eq_true, decide_eq_true_eq, beq_iff_eq]
      have : (0xED : UInt8).toNat = 0xED := rfl
      omega)]
  have e : ((0xED : UInt8).toNat = 0xED ∧ 0xA0 ≤ c.toNat ∧ c.toNat ≤ 0xAF) = (c.toNat ≤ 0xAF) := by
    have : (0xED : UInt8).toNat = 0xED := rfl
    apply propext
    constructor
    · exact fun hh => hh.2.2
    · exact fun hh => ⟨this, h, hh⟩
  simp only [e]
  by_cases hx : c.toNat ≤ 0xAF
  · rw [if_pos hx, if_pos hx]
    rcases tl with _ | ⟨e, _ | ⟨f, _ | ⟨g, rest⟩⟩⟩ <;> rfl
  · rw [if_neg hx, if_neg hx]

theorem high_head (x : Nat) (hx : x < 0x400) (tl : Bytes) (e f g : UInt8) (rest : Bytes)
    (h : unitBytes (UInt16.ofNat (0xD800 + x)) ++ tl = e :: f :: g :: rest) : ¬(0xB0 ≤ f.toNat ∧ f.toNat ≤ 0xBF) := by
  have e1 : (UInt16.ofNat (0xD800 + x)).toNat = 0xD800 + x := toNat16 (by omega)
  generalize UInt16.ofNat (0xD800 + x) = u at h e1
  obtain ⟨c1, d1, hb, hc1, -, -⟩ := surr_bytes (u := u) (by omega)
  rw [hb] at h
  simp only [List.cons_append, List.nil_append, List.cons.injEq] at h
  rw [← h.2.1]
  omega

/-- The second byte after 0xED in what follows an unpaired surrogate. -/
theorem utfChars_head (vm : Vm) (js : JStr) (hlow : ∀ w r, js = w :: r → isLow w = false) :
    ∀ e f g rest, utfChars vm js = e :: f :: g :: rest → e.toNat = 0xED → ¬(0xB0 ≤ f.toNat ∧ f.toNat ≤ 0xBF) := by
  intro e f g rest h he hf
  rcases jstr_cases js with rfl | ⟨c, js', rfl⟩ | ⟨u, js', rfl, hu⟩
  · simp [utfChars] at h
  · rw [utfChars_char] at h
    have hv := char_val c
    unfold charBytes at h
    dsimp only at h
    by_cases hc : c.toNat < 0x10000
    · rw [if_pos hc] at h
      unfold unitBytes at h
      dsimp only at h
      rw [toNat16 hc] at h
      split at h
      · simp only [List.cons_append, List.nil_append, List.cons.injEq] at h
        rw [← h.1, toNat8 (by omega)] at he
        omega
      split at h
      · simp only [List.cons_append, List.nil_append, List.cons.injEq] at h
        rw [← h.1, toNat8 (by omega)] at he
        omega
      · simp only [List.cons_append, List.nil_append, List.cons.injEq] at h
        rw [← h.1, toNat8 (by omega)] at he
        rw [← h.2.1, toNat8 (by omega)] at hf
        omega
    · rw [if_neg hc] at h
      cases vm with
      | art =>
        simp only [fourBytes, List.cons_append, List.nil_append, List.cons.injEq] at h
        rw [← h.1, toNat8 (by omega)] at he
        omega
      | spec =>
        simp only [List.append_assoc] at h
        exact high_head _ (by omega) _ e f g rest h hf
  · have h0 : isLow u = false := hlow u js' rfl
    rcases hu with hl | ⟨hh, hn⟩
    · rw [hl] at h0; cases h0
    rw [utfChars_cons vm u js' (Or.inr hn)] at h
    have h1 : 0xD800 ≤ u.toNat ∧ u.toNat ≤ 0xDBFF := by simpa only [isHigh, Bool.and_eq_true, decide_eq_true_eq] using hh
    obtain ⟨c1, d1, hb, hc1, -, -⟩ := surr_bytes (u := u) (by omega)
    simp only [hb, List.cons_append, List.nil_append, List.cons.injEq] at h
    rw [← h.2.1, hc1] at hf
    omega

/-- An unpaired surrogate is an error. -/
theorem cesu_lone (vm : Vm) (u : UInt16) (rest : JStr)
    (hu : isLow u = true ∨ isHigh u = true ∧ ∀ w r, rest = w :: r → isLow w = false) :
    utfChars vm (u :: rest) = unitBytes u ++ utfChars vm rest ∧ cesuDecode (utfChars vm (u :: rest)) = none := by
  have hcons : utfChars vm (u :: rest) = unitBytes u ++ utfChars vm rest := by
    apply utfChars_cons
    rcases hu with hl | ⟨_, hn⟩
    · left
      simp only [isLow, isHigh, Bool.and_eq_true, decide_eq_true_eq, Bool.and_eq_false_iff, decide_eq_false_iff_not] at hl ⊢
      omega
    · exact Or.inr hn
  refine ⟨hcons, ?_⟩
  rw [hcons]
  rcases hu with hl | ⟨hh, hn⟩
  · have h2 : 0xDC00 ≤ u.toNat ∧ u.toNat ≤ 0xDFFF := by simpa only [isLow, Bool.and_eq_true, decide_eq_true_eq] using hl
    obtain ⟨c, d, hb, hc1, hc, hd⟩ := surr_bytes (u := u) (by omega)
    rw [hb]
    simp only [List.cons_append, List.nil_append]
    rw [cesu_surr hc hd (by omega), if_neg (by omega)]
  · have h1 : 0xD800 ≤ u.toNat ∧ u.toNat ≤ 0xDBFF := by simpa only [isHigh, Bool.and_eq_true, decide_eq_true_eq] using hh
    obtain ⟨c, d, hb, hc1, hc, hd⟩ := surr_bytes (u := u) (by omega)
    rw [hb]
    simp only [List.cons_append, List.nil_append]
    rw [cesu_surr hc hd (by omega), if_pos (by omega)]
    have hhead := utfChars_head vm rest hn
    split
    · rename_i e f g r he
      rw [if_neg]
      intro hx
      exact hhead e f g r he hx.1 ⟨hx.2.1, hx.2.2.1⟩
    · rfl

/-- What the decoder makes of a Kotlin string is UTF-8. -/
theorem cesu_valid (vm : Vm) (js : JStr) (out : Bytes) (h : cesuDecode (utfChars vm js) = some out) :
    ∃ l : List Char, out = l.flatMap String.utf8EncodeChar := by
  generalize hn : js.length = n
  induction n using Nat.strongRecOn generalizing js out with
  | _ n ih =>
    rcases jstr_cases js with rfl | ⟨c, rest, rfl⟩ | ⟨u, rest, rfl, hu⟩
    · simp only [utfChars, cesuDecode, Option.some.injEq] at h
      exact ⟨[], by simpa using h.symm⟩
    · rw [utfChars_char] at h
      have hlen : rest.length < n := by
        subst hn
        have : 0 < (utf16Char c).length := by unfold utf16Char; dsimp only; split <;> simp
        simp only [List.length_append]
        omega
      have hstep : cesuDecode (charBytes vm c ++ utfChars vm rest) = none ∨
          cesuDecode (charBytes vm c ++ utfChars vm rest) =
            (cesuDecode (utfChars vm rest)).map (String.utf8EncodeChar c ++ ·) := by
        cases vm with
        | spec => exact Or.inr (cesu_char c _)
        | art =>
          have hv := char_val c
          unfold charBytes
          dsimp only
          by_cases hc : c.toNat < 0x10000
          · rw [if_pos hc]; exact Or.inr (cesu_unit c hc _)
          · rw [if_neg hc]; exact Or.inl (cesu_four _ (by omega) _)
      rcases hstep with hs | hs
      · rw [hs] at h; cases h
      · rw [hs] at h
        cases hd : cesuDecode (utfChars vm rest) with
        | none => rw [hd] at h; cases h
        | some o =>
          rw [hd] at h
          obtain ⟨l, rfl⟩ := ih rest.length hlen rest o hd rfl
          simp only [Option.map_some, Option.some.injEq] at h
          exact ⟨c :: l, by rw [← h]; rfl⟩
    · rw [(cesu_lone vm u rest hu).2] at h; cases h

/-! ### From Rust to Kotlin -/

theorem newStringUTF_unit (u : UInt16) (tl : Bytes) :
    newStringUTF (unitBytes u ++ tl) = (newStringUTF tl).map (u :: ·) := by
  have hu := u.toNat_lt
  unfold unitBytes
  dsimp only
  by_cases h1 : 0 < u.toNat ∧ u.toNat ≤ 0x7F
  · rw [if_pos h1]
    simp only [List.cons_append, List.nil_append]
    rw [newStringUTF.eq_def]
    dsimp only
    rw [toNat8 (by omega), if_pos (by omega)]
    simp
  rw [if_neg h1]
  by_cases h2 : u.toNat ≤ 0x7FF
  · rw [if_pos h2]
    simp only [List.cons_append, List.nil_append]
    rw [newStringUTF.eq_def]
    dsimp only
    rw [toNat8 (by omega), if_neg (by omega), if_pos (by omega), toNat8 (by omega)]
    have : (u.toNat / 64 + 0xC0) % 32 * 64 + (u.toNat % 64 + 0x80) % 64 = u.toNat := by omega
    rw [this]
    simp
  · rw [if_neg h2]
    simp only [List.cons_append, List.nil_append]
    rw [newStringUTF.eq_def]
    dsimp only
    rw [toNat8 (by omega), if_neg (by omega), if_neg (by omega), if_pos (by omega), toNat8 (by omega), toNat8 (by omega)]
    have : (u.toNat / 4096 + 0xE0) % 16 * 4096 + (u.toNat / 64 % 64 + 0x80) % 64 * 64 + (u.toNat % 64 + 0x80) % 64 =
      u.toNat := by omega
    rw [this]
    simp

/-- What the crate writes for a character is what a machine that follows the specification writes. -/
theorem javaCesuChar_eq (c : Char) : javaCesuChar c = charBytes .spec c := by
  have hv := char_val c
  unfold javaCesuChar charBytes
  dsimp only
  by_cases h0 : c.toNat = 0
  · rw [if_pos h0, if_pos (by omega), h0]
    decide
  rw [if_neg h0]
  by_cases h1 : c.toNat < 0x10000
  · rw [if_pos h1, if_pos h1, utf8_unit h0 h1]
  · rw [if_neg h1, if_neg h1]
    unfold unitBytes
    dsimp only
    rw [toNat16 (by omega), toNat16 (by omega), if_neg (by omega), if_neg (by omega), if_neg (by omega), if_neg (by omega)]
    have e1 : (0xD800 + (c.toNat - 0x10000) / 0x400) / 4096 + 0xE0 = 0xED := by omega
    have e2 : (0xDC00 + (c.toNat - 0x10000) % 0x400) / 4096 + 0xE0 = 0xED := by omega
    rw [e1, e2]
    rfl

theorem newStringUTF_char (c : Char) (tl : Bytes) :
    newStringUTF (charBytes .spec c ++ tl) = (newStringUTF tl).map (utf16Char c ++ ·) := by
  unfold charBytes utf16Char
  dsimp only
  by_cases h : c.toNat < 0x10000
  · rw [if_pos h, if_pos h, newStringUTF_unit]; rfl
  · rw [if_neg h, if_neg h, List.append_assoc, newStringUTF_unit, newStringUTF_unit, Option.map_map]; rfl

theorem newStringUTF_text (l : List Char) :
    newStringUTF (l.flatMap javaCesuChar) = some (l.flatMap utf16Char) := by
  induction l with
  | nil => rfl
  | cons c l ih => rw [List.flatMap_cons, javaCesuChar_eq, newStringUTF_char, ih]; rfl

end Mmkv.Jni
