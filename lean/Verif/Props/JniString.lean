import Verif.Lemmas.JniString
/-!
# C75: Kotlin strings arrive unchanged
-/

namespace Mmkv
open Spec Inst Jni
variable {ι : Type}

/-! ### The conversions -/

/-- **C75**, from Rust to Kotlin: whatever string is stored - NUL and characters beyond U+FFFF included - the Kotlin caller
gets its standard UTF-16 encoding. -/
theorem C75_back (s : String) : newString s = some (utf16 s) := newStringUTF_text s.toList

theorem utf16_inj {s t : String} (h : utf16 s = utf16 t) : s = t := by
  have h1 := javaStr_spec s.toList
  have h2 := javaStr_spec t.toList
  rw [← utfChars_utf16, h, utfChars_utf16, h2] at h1
  simpa using h1.symm

/-- **C75**, no crash: no string argument, however broken, makes the conversion panic. -/
theorem C75_no_panic (vm : Vm) (js : JStr) : ∃ s, envStr vm js = .ok s := by
  unfold envStr javaStr
  cases hs : strOfBytes (utfChars vm js) with
  | some s => exact ⟨s, rfl⟩
  | none =>
    cases hd : cesuDecode (utfChars vm js) with
    | none => exact ⟨_, rfl⟩
    | some out =>
      obtain ⟨l, rfl⟩ := cesu_valid vm js out hd
      simp only [← strBytes_ofList, strOfBytes_strBytes]
      exact ⟨_, rfl⟩

/-- A text with both a NUL and a character beyond U+FFFF. -/
def NulAndWide (s : String) : Prop := '\x00' ∈ s.toList ∧ ∃ c ∈ s.toList, 0x10000 ≤ c.toNat

/-- The Kotlin strings that cross: the UTF-16 encodings of texts - that is, those without unpaired surrogates - on Android
without those that have both a NUL and a character beyond U+FFFF. -/
def Crosses (vm : Vm) (js : JStr) : Prop := ∃ s, js = utf16 s ∧ ¬ (vm = .art ∧ NulAndWide s)

theorem charBytes_no_zero (vm : Vm) (c : Char) : (0 : UInt8) ∉ charBytes vm c := by
  have key : ∀ n : Nat, 0 < n → n < 256 → (0 : UInt8) ≠ UInt8.ofNat n := by
    intro n h0 h1 h2
    have := congrArg UInt8.toNat h2
    rw [toNat8 h1] at this
    change 0 = n at this
    omega
  have hunit : ∀ u : UInt16, (0 : UInt8) ∉ unitBytes u := by
    intro u
    have hu := u.toNat_lt
    unfold unitBytes
    dsimp only
    split
    · simp only [List.mem_singleton]; exact key _ (by omega) (by omega)
    split
    · simp only [List.mem_cons, List.not_mem_nil, or_false, not_or]
      exact ⟨key _ (by omega) (by omega), key _ (by omega) (by omega)⟩
    · simp only [List.mem_cons, List.not_mem_nil, or_false, not_or]
      exact ⟨key _ (by omega) (by omega), key _ (by omega) (by omega), key _ (by omega) (by omega)⟩
  have hv := char_val c
  unfold charBytes
  dsimp only
  split
  · exact hunit _
  · cases vm with
    | spec => simp only [List.mem_append, not_or]; exact ⟨hunit _, hunit _⟩
    | art =>
      simp only [fourBytes, List.mem_cons, List.not_mem_nil, or_false, not_or]
      exact ⟨key _ (by omega) (by omega), key _ (by omega) (by omega), key _ (by omega) (by omega),
        key _ (by omega) (by omega)⟩

theorem nul_of_utf8 {s : String} (h : '\x00' ∈ s.toList) : (0 : UInt8) ∈ strBytes s := by
  rw [show strBytes s = s.toList.flatMap String.utf8EncodeChar by rw [← strBytes_ofList, String.ofList_toList]]
  exact List.mem_flatMap.2 ⟨_, h, by decide⟩

theorem lossyN_no_nul (n : Nat) (bs : Bytes) (h : (0 : UInt8) ∉ bs) : '\x00' ∉ lossyN n bs := by
  induction n generalizing bs with
  | zero => simp [lossyN]
  | succ n ih =>
    cases bs with
    | nil => simp [lossyN]
    | cons b bs =>
      rw [lossyN]
      simp only [List.mem_append, not_or]
      · refine ⟨?_, ih _ fun hm => h (List.mem_of_mem_drop hm)⟩
        cases hs : strOfBytes ((b :: bs).take (chunkLen (b :: bs))) with
        | none => simp only; decide
        | some s =>
          simp only
          intro hm
          have := nul_of_utf8 hm
          rw [strBytes_of_strOfBytes hs] at this
          exact h (List.mem_of_mem_take this)
      · simp

theorem cesu_art_wide (l : List Char) (h : ∃ c ∈ l, 0x10000 ≤ c.toNat) : cesuDecode (l.flatMap (charBytes .art)) = none := by
  induction l with
  | nil => obtain ⟨c, hc, _⟩ := h; cases hc
  | cons c l ih =>
    have hv := char_val c
    rw [List.flatMap_cons]
    by_cases hc : c.toNat < 0x10000
    · have e : charBytes .art c = unitBytes (.ofNat c.toNat) := by unfold charBytes; dsimp only; rw [if_pos hc]
      rw [e, cesu_unit c hc, ih]
      · rfl
      · obtain ⟨d, hd, hw⟩ := h
        rcases List.mem_cons.1 hd with rfl | hd
        · omega
        · exact ⟨d, hd, hw⟩
    · have e : charBytes .art c = fourBytes c.toNat := by unfold charBytes; dsimp only; rw [if_neg hc]
      rw [e]
      exact cesu_four _ (by omega) _

theorem art_nul (l : List Char) (h : '\x00' ∈ l) : (0xC0 : UInt8) ∈ l.flatMap (charBytes .art) :=
  List.mem_flatMap.2 ⟨_, h, by decide⟩

theorem utf8_no_c0 (s : String) : (0xC0 : UInt8) ∉ strBytes s := by
  rw [show strBytes s = s.toList.flatMap String.utf8EncodeChar by rw [← strBytes_ofList, String.ofList_toList]]
  intro h
  obtain ⟨c, -, hc⟩ := List.mem_flatMap.1 h
  have hv := char_val c
  have key : ∀ n : Nat, n < 256 → n ≠ 0xC0 → (0xC0 : UInt8) ≠ UInt8.ofNat n := by
    intro n h1 h0 h2
    have := congrArg UInt8.toNat h2
    rw [toNat8 h1] at this
    change 0xC0 = n at this
    omega
  revert hc
  unfold String.utf8EncodeChar
  simp only [Char.toNat_val]
  split
  · simp only [List.mem_singleton]; exact fun hh => key _ (by omega) (by omega) hh
  split
  · simp only [List.mem_cons, List.not_mem_nil, or_false]
    rintro (hh | hh) <;> exact key _ (by omega) (by omega) hh
  split
  · simp only [List.mem_cons, List.not_mem_nil, or_false]
    rintro (hh | hh | hh) <;> exact key _ (by omega) (by omega) hh
  · simp only [List.mem_cons, List.not_mem_nil, or_false]
    rintro (hh | hh | hh | hh) <;> exact key _ (by omega) (by omega) hh

theorem flatMap_congr_mem {α β : Type} {l : List α} {f g : α → List β} (h : ∀ a ∈ l, f a = g a) : l.flatMap f = l.flatMap g := by
  induction l with
  | nil => rfl
  | cons a l ih =>
    rw [List.flatMap_cons, List.flatMap_cons, h a List.mem_cons_self, ih fun b hb => h b (List.mem_cons_of_mem _ hb)]

/-- **C75**, exactly: a Kotlin string arrives as the text it encodes if, and only if, it crosses. -/
theorem C75_exact (vm : Vm) (js : JStr) : (∃ s, envStr vm js = .ok s ∧ utf16 s = js) ↔ Crosses vm js := by
  constructor
  · rintro ⟨s, hs, rfl⟩
    refine ⟨s, rfl, ?_⟩
    rintro ⟨rfl, hn, hw⟩
    unfold envStr javaStr at hs
    rw [utfChars_utf16] at hs
    have h1 : strOfBytes (s.toList.flatMap (charBytes .art)) = none := by
      cases h : strOfBytes (s.toList.flatMap (charBytes .art)) with
      | none => rfl
      | some s' =>
        exact absurd (strBytes_of_strOfBytes h ▸ art_nul _ hn) (utf8_no_c0 s')
    rw [h1] at hs
    simp only [cesu_art_wide _ hw, Out.ok.injEq] at hs
    have h2 : '\x00' ∉ lossyN (s.toList.flatMap (charBytes .art)).length (s.toList.flatMap (charBytes .art)) := by
      apply lossyN_no_nul
      intro hm
      obtain ⟨c, -, hc⟩ := List.mem_flatMap.1 hm
      exact charBytes_no_zero _ _ hc
    apply h2
    rw [← hs] at hn
    unfold lossy at hn
    rwa [String.toList_ofList] at hn
  · rintro ⟨s, rfl, hno⟩
    refine ⟨s, ?_, rfl⟩
    unfold envStr
    rw [utfChars_utf16]
    cases vm with
    | spec => simpa using javaStr_spec s.toList
    | art =>
      by_cases hw : ∃ c ∈ s.toList, 0x10000 ≤ c.toNat
      · have hn : '\x00' ∉ s.toList := fun hn => hno ⟨rfl, hn, hw⟩
        have e : s.toList.flatMap (charBytes .art) = s.toList.flatMap String.utf8EncodeChar := by
          apply flatMap_congr_mem
          intro c hc
          have h0 : c.toNat ≠ 0 := by
            intro h0
            apply hn
            have : c = '\x00' := by
              apply Char.ext
              apply UInt32.toNat_inj.1
              exact h0
            exact this ▸ hc
          unfold charBytes
          dsimp only
          by_cases hc' : c.toNat < 0x10000
          · rw [if_pos hc', utf8_unit h0 hc']
          · rw [if_neg hc', utf8_four (by omega)]
        unfold javaStr
        rw [e, ← strBytes_ofList, strOfBytes_strBytes]
        simp
      · have e : s.toList.flatMap (charBytes .art) = s.toList.flatMap (charBytes .spec) := by
          apply flatMap_congr_mem
          intro c hc
          have : c.toNat < 0x10000 := by
            apply Classical.byContradiction
            intro h
            exact hw ⟨c, hc, by omega⟩
          unfold charBytes
          dsimp only
          rw [if_pos this, if_pos this]
        rw [e]
        simpa using javaStr_spec s.toList

theorem envStr_crosses {vm : Vm} {js : JStr} (h : Crosses vm js) : ∃ s, envStr vm js = .ok s ∧ utf16 s = js :=
  (C75_exact vm js).2 h

/-- **C75**, keys: two different keys that cross are two different keys of the store. -/
theorem C75_keys {vm : Vm} {k l : JStr} (hk : Crosses vm k) (hl : Crosses vm l) (h : envStr vm k = envStr vm l) : k = l := by
  obtain ⟨s, hs, rfl⟩ := envStr_crosses hk
  obtain ⟨t, ht, rfl⟩ := envStr_crosses hl
  rw [hs, ht] at h
  cases h
  rfl

/-! ### The strings that do not cross -/

/-- What becomes of a Kotlin string that does not cross: a NUL becomes two U+FFFD, an unpaired surrogate three, on a machine
that follows the JNI specification a character beyond U+FFFF six, and every other character stays. -/
inductive Garbles (vm : Vm) : JStr → List Char → Prop where
  | nil : Garbles vm [] []
  | stays {js l} (c : Char) (h : c ≠ '\x00') (hw : c.toNat < 0x10000 ∨ vm = .art) (hr : Garbles vm js l) : Garbles vm (utf16Char c ++ js) (c :: l)
  | nul {js l} (hr : Garbles vm js l) : Garbles vm (0 :: js) ('\uFFFD' :: '\uFFFD' :: l)
  | wide {js l} (c : Char) (h : 0x10000 ≤ c.toNat) (hv : vm = .spec) (hr : Garbles vm js l) :
      Garbles vm (utf16Char c ++ js) (List.replicate 6 '\uFFFD' ++ l)
  | lone {js l} (u : UInt16) (h : 0xDC00 ≤ u.toNat ∧ u.toNat ≤ 0xDFFF ∨
        0xD800 ≤ u.toNat ∧ u.toNat ≤ 0xDBFF ∧ ∀ w r, js = w :: r → ¬ (0xDC00 ≤ w.toNat ∧ w.toNat ≤ 0xDFFF)) (hr : Garbles vm js l) :
      Garbles vm (u :: js) (List.replicate 3 '\uFFFD' ++ l)

theorem char_nul {c : Char} (h0 : c.toNat = 0) : c = '\x00' := by
  apply Char.ext
  apply UInt32.toNat_inj.1
  exact h0

theorem strOfBytes_char (c : Char) : strOfBytes (String.utf8EncodeChar c) = some (String.ofList [c]) := by
  have : String.utf8EncodeChar c = strBytes (String.ofList [c]) := by rw [strBytes_ofList]; simp
  rw [this, strOfBytes_strBytes]

/-- A character in UTF-8 is one chunk. -/
theorem chunkLen_char (c : Char) (tl : Bytes) : chunkLen (String.utf8EncodeChar c ++ tl) = (String.utf8EncodeChar c).length := by
  have hv := char_val c
  unfold String.utf8EncodeChar
  simp only [Char.toNat_val]
  by_cases h1 : c.toNat ≤ 0x7F
  · rw [if_pos h1]
    simp only [List.cons_append, List.nil_append, chunkLen, toNat8 (show c.toNat < 256 by omega)]
    rw [if_neg (by omega), if_neg (by omega), if_neg (by omega)]
    rfl
  rw [if_neg h1]
  by_cases h2 : c.toNat ≤ 0x7FF
  · rw [if_pos h2]
    simp only [List.cons_append, List.nil_append, chunkLen, List.getD_cons_zero, toNat8 (show c.toNat / 64 % 32 + 192 < 256 by omega)]
    rw [if_pos (by omega), if_pos (by simp only [cont, toNat8 (show c.toNat % 64 + 128 < 256 by omega), Bool.and_eq_true, decide_eq_true_eq]; omega)]
    rfl
  rw [if_neg h2]
  by_cases h3 : c.toNat ≤ 0xFFFF
  · rw [if_pos h3]
    simp only [List.cons_append, List.nil_append, chunkLen, List.getD_cons_zero, List.getD_cons_succ, toNat8 (show c.toNat / 4096 % 16 + 224 < 256 by omega)]
    rw [if_neg (by omega), if_pos (by omega), if_pos, if_pos]
    · rfl
    · simp only [cont, toNat8 (show c.toNat % 64 + 128 < 256 by omega), Bool.and_eq_true, decide_eq_true_eq]; omega
    · simp only [second3, cont, toNat8 (show c.toNat / 4096 % 16 + 224 < 256 by omega), toNat8 (show c.toNat / 64 % 64 + 128 < 256 by omega),
        Bool.and_eq_true, Bool.or_eq_true, decide_eq_true_eq, beq_iff_eq]
      omega
  · rw [if_neg h3]
    simp only [List.cons_append, List.nil_append, chunkLen, List.getD_cons_zero, List.getD_cons_succ, toNat8 (show c.toNat / 262144 % 8 + 240 < 256 by omega)]
    rw [if_neg (by omega), if_neg (by omega), if_pos (by omega), if_pos, if_pos, if_pos]
    · rfl
    · simp only [cont, toNat8 (show c.toNat % 64 + 128 < 256 by omega), Bool.and_eq_true, decide_eq_true_eq]; omega
    · simp only [cont, toNat8 (show c.toNat / 64 % 64 + 128 < 256 by omega), Bool.and_eq_true, decide_eq_true_eq]; omega
    · simp only [second4, cont, toNat8 (show c.toNat / 262144 % 8 + 240 < 256 by omega), toNat8 (show c.toNat / 4096 % 64 + 128 < 256 by omega),
        Bool.and_eq_true, Bool.or_eq_true, decide_eq_true_eq, beq_iff_eq]
      omega

theorem utf8_pos (c : Char) : 0 < (String.utf8EncodeChar c).length := by
  unfold String.utf8EncodeChar
  dsimp only
  split
  · simp
  split
  · simp
  split <;> simp

/-- The lossy reading keeps a character in UTF-8. -/
theorem lossyN_char (c : Char) (tl : Bytes) {n : Nat} (hn : (String.utf8EncodeChar c ++ tl).length ≤ n) :
    ∃ m, tl.length ≤ m ∧ lossyN n (String.utf8EncodeChar c ++ tl) = c :: lossyN m tl := by
  have hp := utf8_pos c
  cases n with
  | zero => simp only [List.length_append] at hn; omega
  | succ n =>
    refine ⟨n, by simp only [List.length_append] at hn; omega, ?_⟩
    rw [lossyN, chunkLen_char, List.take_left, List.drop_left, strOfBytes_char]
    · simp
    · intro h
      have := congrArg List.length h
      simp only [List.length_append, List.length_nil] at this
      omega

/-- Bytes that stand for nothing on their own: 0xC0, 0xED before the bytes of a surrogate, continuation bytes. -/
theorem lossyN_bad (b : UInt8) (tl : Bytes) {n : Nat} (hn : (b :: tl).length ≤ n)
    (hb : b.toNat = 0xC0 ∨ cont b = true ∨ b.toNat = 0xED ∧ ∃ c r, tl = c :: r ∧ 0xA0 ≤ c.toNat) :
    ∃ m, tl.length ≤ m ∧ lossyN n (b :: tl) = '\uFFFD' :: lossyN m tl := by
  cases n with
  | zero => simp at hn
  | succ n =>
    refine ⟨n, by simpa using hn, ?_⟩
    have hk : chunkLen (b :: tl) = 1 := by
      simp only [chunkLen]
      rcases hb with hb | hb | ⟨hb, c, r, rfl, hc⟩
      · rw [hb, if_neg (by omega), if_neg (by omega), if_neg (by omega)]
      · simp only [cont, Bool.and_eq_true, decide_eq_true_eq] at hb
        rw [if_neg (by omega), if_neg (by omega), if_neg (by omega)]
      · simp only [List.getD_cons_zero]
        rw [hb, if_neg (by omega), if_pos (by omega), if_neg]
        simp only [second3, hb, Bool.and_eq_true, Bool.or_eq_true, decide_eq_true_eq, beq_iff_eq]
        omega
    have hs : strOfBytes [b] = none := by
      have hall : ∀ x : Fin 256, (x.val = 0xC0 ∨ (0x80 ≤ x.val ∧ x.val ≤ 0xBF) ∨ x.val = 0xED) → strOfBytes [UInt8.ofNat x.val] = none := by
        decide +kernel
      have hlt := b.toNat_lt
      have := hall ⟨b.toNat, by simpa using hlt⟩ (by
        simp only
        rcases hb with hb | hb | hb
        · exact Or.inl hb
        · simp only [cont, Bool.and_eq_true, decide_eq_true_eq] at hb
          exact Or.inr (Or.inl hb)
        · exact Or.inr (Or.inr hb.1))
      simpa using this
    rw [lossyN, hk]
    · simp only [List.take_succ_cons, List.take_zero, hs, List.drop_succ_cons, List.drop_zero, List.cons_append, List.nil_append]
    · simp

/-- An unpaired surrogate, or half a pair, becomes three U+FFFD. -/
theorem lossyN_surr (u : UInt16) (h : 0xD800 ≤ u.toNat ∧ u.toNat ≤ 0xDFFF) (tl : Bytes) {n : Nat} (hn : (unitBytes u ++ tl).length ≤ n) :
    ∃ m, tl.length ≤ m ∧ lossyN n (unitBytes u ++ tl) = List.replicate 3 '\uFFFD' ++ lossyN m tl := by
  obtain ⟨c, d, hb, hc1, hc, hd⟩ := surr_bytes h
  rw [hb] at hn ⊢
  simp only [List.cons_append, List.nil_append] at hn ⊢
  obtain ⟨m1, h1, e1⟩ := lossyN_bad 0xED (c :: d :: tl) hn (Or.inr (Or.inr ⟨rfl, c, _, rfl, by omega⟩))
  obtain ⟨m2, h2, e2⟩ := lossyN_bad c (d :: tl) h1 (Or.inr (Or.inl hc))
  obtain ⟨m3, h3, e3⟩ := lossyN_bad d tl h2 (Or.inr (Or.inl hd))
  exact ⟨m3, h3, by rw [e1, e2, e3]; rfl⟩

/-- The lossy reading of what a Java machine writes. -/
theorem lossyN_garbles {vm : Vm} {js : JStr} {l : List Char} (h : Garbles vm js l) {n : Nat} (hn : (utfChars vm js).length ≤ n) :
    lossyN n (utfChars vm js) = l := by
  induction h generalizing n with
  | nil => cases n <;> rfl
  | @stays js l c h hw hr ih =>
    have hv := char_val c
    have h0 : c.toNat ≠ 0 := fun h0 => h (char_nul h0)
    have hb : charBytes vm c = String.utf8EncodeChar c := by
      unfold charBytes
      dsimp only
      by_cases hc : c.toNat < 0x10000
      · rw [if_pos hc, utf8_unit h0 hc]
      · rw [if_neg hc, utf8_four (by omega)]
        rcases hw with hw | rfl
        · exact absurd hw hc
        · rfl
    rw [utfChars_char, hb] at hn ⊢
    obtain ⟨m, hm, e⟩ := lossyN_char c _ hn
    rw [e, ih hm]
  | @nul js l hr ih =>
    have hu : utfChars vm (0 :: js) = 0xC0 :: 0x80 :: utfChars vm js := by
      rw [utfChars_cons vm 0 js (Or.inl (by decide))]
      rfl
    rw [hu] at hn ⊢
    obtain ⟨m1, h1, e1⟩ := lossyN_bad 0xC0 _ hn (Or.inl rfl)
    obtain ⟨m2, h2, e2⟩ := lossyN_bad 0x80 _ h1 (Or.inr (Or.inl rfl))
    rw [e1, e2, ih h2]
  | @wide js l c h hv hr ih =>
    subst hv
    have hv := char_val c
    have hb : charBytes .spec c = unitBytes (.ofNat (0xD800 + (c.toNat - 0x10000) / 0x400)) ++ unitBytes (.ofNat (0xDC00 + (c.toNat - 0x10000) % 0x400)) := by
      unfold charBytes
      dsimp only
      rw [if_neg (by omega)]
    rw [utfChars_char, hb, List.append_assoc] at hn ⊢
    obtain ⟨m1, h1, e1⟩ := lossyN_surr _ (by rw [toNat16 (by omega)]; omega) _ hn
    obtain ⟨m2, h2, e2⟩ := lossyN_surr _ (by rw [toNat16 (by omega)]; omega) _ h1
    rw [e1, e2, ih h2]
    rfl
  | @lone js l u h hr ih =>
    have hu : utfChars vm (u :: js) = unitBytes u ++ utfChars vm js := by
      apply utfChars_cons
      rcases h with h | ⟨h1, h2, h3⟩
      · left
        simp only [isHigh, Bool.and_eq_false_iff, decide_eq_false_iff_not]
        omega
      · right
        intro w r hw
        have := h3 w r hw
        simp only [isLow, Bool.and_eq_false_iff, decide_eq_false_iff_not]
        omega
    rw [hu] at hn ⊢
    obtain ⟨m1, h1, e1⟩ := lossyN_surr u (by omega) _ hn
    rw [e1, ih h1]

/-- Every Kotlin string has a garbled form. -/
theorem garbles_total (vm : Vm) (js : JStr) : ∃ l, Garbles vm js l := by
  generalize hn : js.length = n
  induction n using Nat.strongRecOn generalizing js with
  | _ n ih =>
    rcases jstr_cases js with rfl | ⟨c, rest, rfl⟩ | ⟨u, rest, rfl, hu⟩
    · exact ⟨_, .nil⟩
    · have hlen : rest.length < n := by
        subst hn
        have : 0 < (utf16Char c).length := by unfold utf16Char; dsimp only; split <;> simp
        simp only [List.length_append]
        omega
      obtain ⟨l, hl⟩ := ih rest.length hlen rest rfl
      by_cases h0 : c = '\x00'
      · subst h0
        exact ⟨_, .nul hl⟩
      · by_cases hw : c.toNat < 0x10000
        · exact ⟨_, .stays c h0 (Or.inl hw) hl⟩
        · cases vm with
          | art => exact ⟨_, .stays c h0 (Or.inr rfl) hl⟩
          | spec => exact ⟨_, .wide c (by omega) rfl hl⟩
    · obtain ⟨l, hl⟩ := ih rest.length (by subst hn; simp) rest rfl
      refine ⟨_, .lone u ?_ hl⟩
      rcases hu with h | ⟨h, hn⟩
      · left
        simpa only [isLow, Bool.and_eq_true, decide_eq_true_eq] using h
      · right
        simp only [isHigh, Bool.and_eq_true, decide_eq_true_eq] at h
        refine ⟨h.1, h.2, fun w r hw => ?_⟩
        have := hn w r hw
        simp only [isLow, Bool.and_eq_false_iff, decide_eq_false_iff_not] at this
        omega

/-- What the crate cesu8 decodes crosses. -/
theorem crosses_of_cesu (vm : Vm) (js : JStr) (out : Bytes) (h : cesuDecode (utfChars vm js) = some out) :
    ∃ l : List Char, js = l.flatMap utf16Char ∧ (vm = .art → ∀ c ∈ l, c.toNat < 0x10000) := by
  generalize hn : js.length = n
  induction n using Nat.strongRecOn generalizing js out with
  | _ n ih =>
    rcases jstr_cases js with rfl | ⟨c, rest, rfl⟩ | ⟨u, rest, rfl, hu⟩
    · exact ⟨[], rfl, by simp⟩
    · have hv := char_val c
      rw [utfChars_char] at h
      have hlen : rest.length < n := by
        subst hn
        have : 0 < (utf16Char c).length := by unfold utf16Char; dsimp only; split <;> simp
        simp only [List.length_append]
        omega
      have hstep : (vm = .art → c.toNat < 0x10000) ∧ ∃ o, cesuDecode (utfChars vm rest) = some o := by
        cases vm with
        | spec =>
          rw [cesu_char] at h
          cases hd : cesuDecode (utfChars .spec rest) with
          | none => rw [hd] at h; cases h
          | some o => exact ⟨by simp, o, rfl⟩
        | art =>
          unfold charBytes at h
          dsimp only at h
          by_cases hc : c.toNat < 0x10000
          · rw [if_pos hc, cesu_unit c hc] at h
            cases hd : cesuDecode (utfChars .art rest) with
            | none => rw [hd] at h; cases h
            | some o => exact ⟨fun _ => hc, o, rfl⟩
          · rw [if_neg hc, cesu_four _ (by omega)] at h
            cases h
      obtain ⟨hc, o, ho⟩ := hstep
      obtain ⟨l, hl, hw⟩ := ih rest.length hlen rest o ho rfl
      refine ⟨c :: l, by rw [hl]; rfl, fun hvm d hd => ?_⟩
      rcases List.mem_cons.1 hd with rfl | hd
      · exact hc hvm
      · exact hw hvm d hd
    · rw [(cesu_lone vm u rest hu).2] at h; cases h

/-- **C75**, the strings that do not cross, exactly: what arrives instead.  So two keys that do not cross are the same key if
they differ only in which unpaired surrogates stand at the same places, and so on. -/
theorem C75_lossy (vm : Vm) (js : JStr) (h : ¬ Crosses vm js) :
    ∃ l, Garbles vm js l ∧ (∀ l', Garbles vm js l' → l' = l) ∧ envStr vm js = .ok (String.ofList l) := by
  obtain ⟨l, hl⟩ := garbles_total vm js
  refine ⟨l, hl, fun l' hl' => ?_, ?_⟩
  · rw [← lossyN_garbles hl (Nat.le_refl _), ← lossyN_garbles hl' (Nat.le_refl _)]
  unfold envStr javaStr
  cases hs : strOfBytes (utfChars vm js) with
  | some s =>
    have hb := strBytes_of_strOfBytes hs
    have hs' : strBytes s = s.toList.flatMap String.utf8EncodeChar := by rw [← strBytes_ofList, String.ofList_toList]
    have hall : ∀ (cs : List Char) (n : Nat), (cs.flatMap String.utf8EncodeChar).length ≤ n → lossyN n (cs.flatMap String.utf8EncodeChar) = cs := by
      intro cs
      induction cs with
      | nil => intro n _; cases n <;> rfl
      | cons c cs ih =>
        intro n hn
        rw [List.flatMap_cons] at hn ⊢
        obtain ⟨m, hm, e⟩ := lossyN_char c _ hn
        rw [e, ih m hm]
    have h1 := lossyN_garbles hl (Nat.le_refl _)
    rw [← hb, hs', hall _ _ (Nat.le_refl _)] at h1
    simp only [Out.ok.injEq]
    rw [← h1, String.ofList_toList]
  | none =>
    cases hd : cesuDecode (utfChars vm js) with
    | some out =>
      exfalso
      obtain ⟨cs, he, hw⟩ := crosses_of_cesu vm js out hd
      apply h
      refine ⟨String.ofList cs, by rw [he]; simp [utf16], ?_⟩
      rintro ⟨rfl, _, c, hc, hc'⟩
      have := hw rfl c (by simpa using hc)
      omega
    | none =>
      simp only [lossy, lossyN_garbles hl (Nat.le_refl _)]

/-- Two strings that do not cross, and what becomes of them. -/
example : ¬ Crosses .art (utf16 "a\x00😀") ∧ Garbles .art (utf16 "a\x00😀") ['a', '\uFFFD', '\uFFFD', '😀'] ∧
    ¬ Crosses .spec ([0xD800] ++ utf16 "a😀") ∧
    Garbles .spec ([0xD800] ++ utf16 "a😀") (List.replicate 3 '\uFFFD' ++ 'a' :: (List.replicate 6 '\uFFFD' ++ [])) := by
  have no : ∀ vm s js, envStr vm js = .ok s → utf16 s ≠ js → ¬ Crosses vm js := by
    intro vm s js h1 h2 h3
    obtain ⟨s', h4, h5⟩ := (C75_exact vm js).2 h3
    rw [h1] at h4
    cases h4
    exact h2 h5
  refine ⟨no _ "a\uFFFD\uFFFD😀" _ ?_ ?_, ?_, no _ "\uFFFD\uFFFD\uFFFDa\uFFFD\uFFFD\uFFFD\uFFFD\uFFFD\uFFFD" _ ?_ ?_, ?_⟩
  · decide +kernel
  · decide +kernel
  · exact .stays 'a' (by decide) (Or.inl (by decide)) (.nul (.stays '😀' (by decide) (Or.inr rfl) .nil))
  · decide +kernel
  · decide +kernel
  · exact .lone 0xD800 (Or.inr ⟨by decide, by decide, (by intro w r h; cases h; decide)⟩) (.stays 'a' (by decide) (Or.inl (by decide)) (.wide '😀' (by decide) rfl .nil))

/-! ### Through the store -/

/-- A value that is not a string that does not cross. -/
def CrossesVal (vm : Vm) : (t : Ty) → JVal t → Prop
  | .str, v => Crosses vm v
  | _, _ => True

theorem ret_arg (vm : Vm) (t : Ty) (v : JVal t) (h : CrossesVal vm t v) : ∃ w, arg vm t v = .ok w ∧ ret t w = some v := by
  cases t with
  | str =>
    obtain ⟨s, hs, he⟩ := envStr_crosses h
    exact ⟨s, hs, by rw [← he]; exact C75_back s⟩
  | bool => exact ⟨_, rfl, by simp only [ret]; exact congrArg some (kotlin_roundtrip .bool v)⟩
  | byteArray => exact ⟨_, rfl, by simp only [ret]; exact congrArg some (kotlin_roundtrip .byteArray v)⟩
  | i32 => exact ⟨_, rfl, rfl⟩
  | i64 => exact ⟨_, rfl, rfl⟩
  | f32 => exact ⟨_, rfl, rfl⟩
  | f64 => exact ⟨_, rfl, rfl⟩
  | i32Array => exact ⟨_, rfl, by simp only [ret]; exact congrArg some (kotlin_roundtrip .i32Array v)⟩
  | i64Array => exact ⟨_, rfl, by simp only [ret]; exact congrArg some (kotlin_roundtrip .i64Array v)⟩
  | f32Array => exact ⟨_, rfl, by simp only [ret]; exact congrArg some (kotlin_roundtrip .f32Array v)⟩
  | f64Array => exact ⟨_, rfl, by simp only [ret]; exact congrArg some (kotlin_roundtrip .f64Array v)⟩

/-- **C75**, what is true: a value put from Kotlin under a key reads back equal under that key, whatever else happens to
other keys, for every key and every string value that crosses.  Missing from C75: unpaired surrogates, and on Android the
strings with both a NUL and a character beyond U+FFFF (`C75_refuted`, `C75_refuted_value`). -/
theorem C75_partial {codecs : ι → Codec} {i : ι} {page : Nat} {file : Bytes} {u : Nat} {q : Option Nat}
    {s0 s : Inst ι} {es es' : List (Ev ι)} {rs : List (Out Unit)} {vm : Vm} {k : JStr} (t : Ty) (v : JVal t)
    (hk : Crosses vm k) (hv : CrossesVal vm t v) {ev : Ev ι} (hput : Jni.put vm k t v = some ev)
    (hopen : openAt codecs i page file u q = some s0)
    (hrun : run codecs s0 (es ++ [ev] ++ es') = some (s, rs)) (hok : ∀ r ∈ rs, r = .ok ())
    (hidle : s.phase = .idle) (hleave : ∀ key, utf16 key = k → ∀ m ∈ calls es', Leaves key m) :
    Jni.get vm s k t = .value v := by
  obtain ⟨key, hkey, he⟩ := envStr_crosses hk
  obtain ⟨w, hw, hr⟩ := ret_arg vm t v hv
  unfold Jni.put at hput
  rw [hkey, hw] at hput
  simp only [Option.some.injEq] at hput
  subst hput
  have hg := C02_put_get t w hopen hrun hok hidle (hleave key he)
  unfold Jni.get
  rw [hkey]
  simp only [hg, hr]

/-- **C75**: a key deleted from Kotlin and not put since is reported as missing, and nothing else happens: no crash, whatever
the type asked for. -/
theorem C75_delete {codecs : ι → Codec} {i : ι} {page : Nat} {file : Bytes} {u : Nat} {q : Option Nat}
    {s0 s : Inst ι} {es es' : List (Ev ι)} {rs : List (Out Unit)} {vm : Vm} {k : JStr} (t : Ty)
    (hk : Crosses vm k) {ev : Ev ι} (hdel : Jni.delete vm k = some ev)
    (hopen : openAt codecs i page file u q = some s0)
    (hrun : run codecs s0 (es ++ [ev] ++ es') = some (s, rs)) (hok : ∀ r ∈ rs, r = .ok ())
    (hidle : s.phase = .idle) (hleave : ∀ key, utf16 key = k → ∀ e, Spec.Mutation.put key e ∉ calls es') :
    Jni.get vm s k t = .keyNotFound := by
  obtain ⟨key, hkey, he⟩ := envStr_crosses hk
  unfold Jni.delete at hdel
  rw [hkey] at hdel
  simp only [Option.some.injEq] at hdel
  subst hdel
  have hg : s.get key t = .err .keyNotFound := C04_delete_removes hopen hrun hok hidle (hleave key he) _ _
  unfold Jni.get
  rw [hkey]
  simp only [hg]

/-- **C75**: different keys are different keys: whatever is put or deleted from Kotlin under other keys, a key reads as
before. -/
theorem C75_other_keys {codecs : ι → Codec} {i : ι} {page : Nat} {file : Bytes} {u : Nat} {q : Option Nat}
    {s0 s1 s2 : Inst ι} {es1 es2 : List (Ev ι)} {rs1 rs2 : List (Out Unit)} {vm : Vm} {k : JStr} (t : Ty) (hk : Crosses vm k)
    (hopen : openAt codecs i page file u q = some s0)
    (hrun1 : run codecs s0 es1 = some (s1, rs1)) (hok1 : ∀ r ∈ rs1, r = .ok ()) (hidle1 : s1.phase = .idle)
    (hrun2 : run codecs s1 es2 = some (s2, rs2)) (hok2 : ∀ r ∈ rs2, r = .ok ()) (hidle2 : s2.phase = .idle)
    (hother : ∀ e ∈ es2, e.call? ≠ none → ∃ l, Crosses vm l ∧ l ≠ k ∧
      (Jni.delete vm l = some e ∨ ∃ (t' : Ty) (v : JVal t'), Jni.put vm l t' v = some e)) :
    Jni.get vm s2 k t = Jni.get vm s1 k t := by
  obtain ⟨key, hkey, he⟩ := envStr_crosses hk
  have hleave : ∀ m ∈ calls es2, Leaves key m := by
    intro m hm
    obtain ⟨e, hin, hc⟩ := List.mem_filterMap.1 hm
    obtain ⟨l, hl, hne, hcase⟩ := hother e hin (by rw [hc]; simp)
    obtain ⟨kl, hkl, hel⟩ := envStr_crosses hl
    have hkk : kl ≠ key := by
      rintro rfl
      exact hne (hel.symm.trans he)
    rcases hcase with hd | ⟨t', v, hp⟩
    · unfold Jni.delete at hd
      rw [hkl] at hd
      simp only [Option.some.injEq] at hd
      subst hd
      simp only [Ev.call?, Option.some.injEq] at hc
      subst hc
      exact hkk
    · unfold Jni.put at hp
      rw [hkl] at hp
      split at hp
      · rename_i _ _ w _ hkey' _
        simp only [Out.ok.injEq] at hkey'
        subst hkey'
        simp only [Option.some.injEq] at hp
        subst hp
        simp only [Ev.call?, Option.some.injEq] at hc
        subst hc
        exact hkk
      · cases hp
  have hg : s2.get key t = s1.get key t := C05_other_keys hopen hrun1 hok1 hidle1 hrun2 hok2 hidle2 hleave _ _
  unfold Jni.get
  rw [hkey]
  simp only [hg]

/-- **C75 is false of this program**, keys: the two different Kotlin keys `"\uD800"` and `"\uD801"` (unpaired surrogates) are
one key; a value put under one is read, and overwritten, under the other. -/
theorem C75_refuted {codecs : ι → Codec} {i : ι} {page : Nat} {file : Bytes} {u : Nat} {q : Option Nat}
    {s0 s : Inst ι} {es es' : List (Ev ι)} {rs : List (Out Unit)} {vm : Vm} (t : Ty) (v : JVal t)
    (hv : CrossesVal vm t v) {ev : Ev ι} (hput : Jni.put vm [0xD800] t v = some ev)
    (hopen : openAt codecs i page file u q = some s0)
    (hrun : run codecs s0 (es ++ [ev] ++ es') = some (s, rs)) (hok : ∀ r ∈ rs, r = .ok ())
    (hidle : s.phase = .idle) (hleave : ∀ m ∈ calls es', Leaves "\uFFFD\uFFFD\uFFFD" m) :
    Jni.get vm s [0xD801] t = .value v := by
  have e1 : envStr vm [0xD800] = .ok "\uFFFD\uFFFD\uFFFD" := by cases vm <;> decide +kernel
  have e2 : envStr vm [0xD801] = .ok "\uFFFD\uFFFD\uFFFD" := by cases vm <;> decide +kernel
  obtain ⟨w, hw, hr⟩ := ret_arg vm t v hv
  unfold Jni.put at hput
  rw [e1, hw] at hput
  simp only [Option.some.injEq] at hput
  subst hput
  have hg := C02_put_get t w hopen hrun hok hidle hleave
  unfold Jni.get
  rw [e2]
  simp only [hg, hr]

/-- **C75 is false of this program**, values: a string that does not cross is stored without an error, and what is read back
is a different string. -/
theorem C75_refuted_value {codecs : ι → Codec} {i : ι} {page : Nat} {file : Bytes} {u : Nat} {q : Option Nat}
    {s0 s : Inst ι} {es es' : List (Ev ι)} {rs : List (Out Unit)} {vm : Vm} {k : JStr} (v : JStr)
    (hk : Crosses vm k) (hv : ¬ Crosses vm v) {ev : Ev ι} (hput : Jni.put vm k .str v = some ev)
    (hopen : openAt codecs i page file u q = some s0)
    (hrun : run codecs s0 (es ++ [ev] ++ es') = some (s, rs)) (hok : ∀ r ∈ rs, r = .ok ())
    (hidle : s.phase = .idle) (hleave : ∀ key, utf16 key = k → ∀ m ∈ calls es', Leaves key m) :
    ∃ w : JStr, w ≠ v ∧ Jni.get vm s k .str = .value w := by
  obtain ⟨key, hkey, he⟩ := envStr_crosses hk
  obtain ⟨x, hx⟩ := C75_no_panic vm v
  unfold Jni.put at hput
  rw [hkey, show arg vm .str v = .ok x from hx] at hput
  simp only [Option.some.injEq] at hput
  subst hput
  have hg := C02_put_get .str x hopen hrun hok hidle (hleave key he)
  refine ⟨utf16 x, fun h => hv ((C75_exact vm v).1 ⟨x, hx, h⟩), ?_⟩
  unfold Jni.get
  rw [hkey]
  simp only [hg, show ret .str x = some (utf16 x) from C75_back x]

/-! ### Concrete cases -/

/-- Strings that cross: a NUL and an emoji on a machine that follows the specification, either of them on Android, the empty
string; and what does not cross: an unpaired surrogate, and a NUL with an emoji on Android. -/
example : Crosses .spec [0, 0xD83D, 0xDE00] ∧ Crosses .art [0x61, 0xD83D, 0xDE00] ∧ Crosses .art [0x61, 0, 0xE9] ∧
    Crosses .art [] ∧ ¬ Crosses .art [0, 0xD83D, 0xDE00] ∧ ¬ Crosses .spec [0xD800] ∧ ¬ Crosses .art [0x61, 0xDE00, 0xD83D] := by
  have yes : ∀ vm s js, envStr vm js = .ok s → utf16 s = js → Crosses vm js := fun vm s js h1 h2 => (C75_exact vm js).1 ⟨s, h1, h2⟩
  have no : ∀ vm s js, envStr vm js = .ok s → utf16 s ≠ js → ¬ Crosses vm js := by
    intro vm s js h1 h2 h3
    obtain ⟨s', h4, h5⟩ := (C75_exact vm js).2 h3
    rw [h1] at h4
    cases h4
    exact h2 h5
  refine ⟨yes _ "\x00😀" _ ?_ ?_, yes _ "a😀" _ ?_ ?_, yes _ "a\x00é" _ ?_ ?_, yes _ "" _ ?_ ?_,
    no _ "\uFFFD\uFFFD😀" _ ?_ ?_, no _ "\uFFFD\uFFFD\uFFFD" _ ?_ ?_,
    no _ "a\uFFFD\uFFFD\uFFFD\uFFFD\uFFFD\uFFFD" _ ?_ ?_⟩ <;> decide +kernel

/-- The value true under the key `"\uD800"`, and the runs the theorems speak of. -/
example : ∃ s0 s rs, Jni.put (ι := Unit) .art [0xD800] .bool true =
      some (.put "\uFFFD\uFFFD\uFFFD" Ty.bool.token (toBytes .bool true)) ∧ openAt plain () 64 [] = some s0 ∧
    run plain s0 ([] ++ [.put "\uFFFD\uFFFD\uFFFD" Ty.bool.token (toBytes .bool true)] ++ swiftDemo.tail) = some (s, rs) ∧
    (∀ r ∈ rs, r = .ok ()) ∧ s.phase = .idle ∧ rs.length = 1 ∧ calls swiftDemo.tail = [] := by
  have h : passes (fresh64 ([] ++ [.put "\uFFFD\uFFFD\uFFFD" Ty.bool.token (toBytes .bool true)] ++ swiftDemo.tail))
    (fun s rs => decide ((∀ r ∈ rs, r = .ok ()) ∧ s.phase = .idle ∧ rs.length = 1)) = true := by decide +kernel
  obtain ⟨s0, s, rs, h0, h1, h2⟩ := exists_of_fresh64 h
  simp only [decide_eq_true_eq] at h2
  refine ⟨s0, s, rs, ?_, h0, h1, h2.1, h2.2.1, h2.2.2, rfl⟩
  have e1 : envStr .art [0xD800] = .ok "\uFFFD\uFFFD\uFFFD" := by decide +kernel
  unfold Jni.put
  rw [e1]
  rfl

/-- A string value with an emoji under a key with one, from Kotlin to the store. -/
example : ∃ s0 s rs, Jni.put (ι := Unit) .art (utf16 "😀") .str (utf16 "é😀") = some (.put "😀" Ty.str.token (toBytes .str "é😀")) ∧
    Crosses .art (utf16 "😀") ∧ CrossesVal .art .str (utf16 "é😀") ∧ openAt plain () 64 [] = some s0 ∧
    run plain s0 ([] ++ [.put "😀" Ty.str.token (toBytes .str "é😀")] ++ swiftDemo.tail) = some (s, rs) ∧
    (∀ r ∈ rs, r = .ok ()) ∧ s.phase = .idle ∧ rs.length = 1 := by
  have h : passes (fresh64 ([] ++ [.put "😀" Ty.str.token (toBytes .str "é😀")] ++ swiftDemo.tail))
    (fun s rs => decide ((∀ r ∈ rs, r = .ok ()) ∧ s.phase = .idle ∧ rs.length = 1)) = true := by decide +kernel
  obtain ⟨s0, s, rs, h0, h1, h2⟩ := exists_of_fresh64 h
  simp only [decide_eq_true_eq] at h2
  have e1 : envStr .art (utf16 "😀") = .ok "😀" := by decide +kernel
  have e2 : envStr .art (utf16 "é😀") = .ok "é😀" := by decide +kernel
  refine ⟨s0, s, rs, ?_, (C75_exact _ _).1 ⟨_, e1, rfl⟩, (C75_exact _ _).1 ⟨_, e2, rfl⟩, h0, h1, h2.1, h2.2.1, h2.2.2⟩
  unfold Jni.put
  rw [e1, show arg .art .str (utf16 "é😀") = .ok "é😀" from e2]

/-- A delete from Kotlin, after a put, and a put under another key after it (`C75_delete`, `C75_other_keys`). -/
example : ∃ s0 s rs, Jni.delete (ι := Unit) .art (utf16 "😀") = some (.delete "😀") ∧ Crosses .art (utf16 "😀") ∧
    openAt plain () 64 [] = some s0 ∧
    run plain s0 ([.put "😀" Ty.bool.token (toBytes .bool true), .api (), .api (), .io idOrder, .io idOrder, .io idOrder] ++ [.delete "😀"] ++
      [.api (), .api (), .put "é" Ty.bool.token (toBytes .bool false), .api (), .api ()]) = some (s, rs) ∧
    (∀ r ∈ rs, r = .ok ()) ∧ s.phase = .idle ∧ rs.length = 3 := by
  have h : passes (fresh64 ([.put "😀" Ty.bool.token (toBytes .bool true), .api (), .api (), .io idOrder, .io idOrder, .io idOrder] ++ [.delete "😀"] ++
      [.api (), .api (), .put "é" Ty.bool.token (toBytes .bool false), .api (), .api ()]))
    (fun s rs => decide ((∀ r ∈ rs, r = .ok ()) ∧ s.phase = .idle ∧ rs.length = 3)) = true := by decide +kernel
  obtain ⟨s0, s, rs, h0, h1, h2⟩ := exists_of_fresh64 h
  simp only [decide_eq_true_eq] at h2
  have e1 : envStr .art (utf16 "😀") = .ok "😀" := by decide +kernel
  refine ⟨s0, s, rs, ?_, (C75_exact _ _).1 ⟨_, e1, rfl⟩, h0, h1, h2.1, h2.2.1, h2.2.2⟩
  unfold Jni.delete
  rw [e1]

end Mmkv
