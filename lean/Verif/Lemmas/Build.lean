import Verif.Model.Build
import Verif.Lemmas.Blocks
import Verif.Lemmas.Wire
import Verif.Lemmas.Instance
/-! Where the machine's arithmetic is that of the numbers. -/

namespace Mmkv
open Spec
open WState (lenOffset)
variable {ι : Type}

/-! ### A message read from few bytes is written in few bytes -/

theorem readVarint_rest {bs rest : Bytes} {v : Nat} (h : readVarint bs = some (v, rest)) : rest.length ≤ bs.length := by
  obtain ⟨p, rfl, _⟩ := readVarint_iff.1 h
  simp

theorem readLenDelim_rest {bs q rest : Bytes} (h : readLenDelim bs = some (q, rest)) : q.length + rest.length ≤ bs.length := by
  obtain ⟨p, rfl, _⟩ := readLenDelim_iff.1 h
  simp

theorem skipUnknown_rest {tag : Nat} {bs rest : Bytes} (h : skipUnknown tag bs = some rest) : rest.length ≤ bs.length := by
  unfold skipUnknown at h
  split at h
  · cases h
  split at h
  · obtain ⟨⟨v, r⟩, h1, rfl⟩ := Option.map_eq_some_iff.1 h
    exact readVarint_rest h1
  split at h
  · split at h
    · injection h with h; subst h; simp
    · cases h
  split at h
  · obtain ⟨⟨v, r⟩, h1, rfl⟩ := Option.map_eq_some_iff.1 h
    have := readLenDelim_rest h1
    simp only; omega
  split at h
  · split at h
    · injection h with h; subst h; simp
    · cases h
  · cases h

/-- Bytes of key and value. -/
def payload (b : Buffer) : Nat := (strBytes b.key).length + b.value.length

theorem kvField_payload {acc acc' : Buffer} {bs rest : Bytes} (h : kvField acc bs = some (acc', rest)) : payload acc' + rest.length ≤ payload acc + bs.length := by
  unfold kvField at h
  split at h
  · cases h
  rename_i tag rest0 h0
  have l0 := readVarint_rest h0
  split at h
  · split at h
    · cases h
    rename_i p rest' h1
    obtain ⟨s, hs, he⟩ := Option.map_eq_some_iff.1 h
    injection he with e1 e2
    subst e1; subst e2
    have l1 := readLenDelim_rest h1
    have : (strBytes s).length = p.length := by rw [strBytes_of_strOfBytes hs]
    simp only [payload]; omega
  split at h
  · obtain ⟨⟨v, r⟩, h1, he⟩ := Option.map_eq_some_iff.1 h
    injection he with e1 e2
    subst e1; subst e2
    have l1 := readVarint_rest h1
    simp only [payload]; omega
  split at h
  · obtain ⟨⟨v, r⟩, h1, he⟩ := Option.map_eq_some_iff.1 h
    injection he with e1 e2
    subst e1; subst e2
    have l1 := readLenDelim_rest h1
    simp only [payload]; omega
  · obtain ⟨r, h1, he⟩ := Option.map_eq_some_iff.1 h
    injection he with e1 e2
    subst e1; subst e2
    have l1 := skipUnknown_rest h1
    omega

theorem kvLoop_payload : ∀ {fuel : Nat} {acc b : Buffer} {bs : Bytes}, kvLoop fuel acc bs = some b → payload b ≤ payload acc + bs.length := by
  intro fuel
  induction fuel with
  | zero =>
    intro acc b bs h
    cases bs with
    | nil => injection h with h; subst h; omega
    | cons x bs => cases h
  | succ fuel ih =>
    intro acc b bs h
    cases bs with
    | nil => injection h with h; subst h; omega
    | cons x bs =>
      simp only [kvLoop] at h
      split at h
      · rename_i acc' rest h1
        have := kvField_payload h1
        have := ih h
        omega
      · cases h

theorem kvToBytes_le (b : Buffer) : (kvToBytes b).length ≤ payload b + 33 := by
  have hv : ∀ n, (varint n).length ≤ 10 := fun n => varintFuel_length_le 10 n
  unfold kvToBytes payload lenDelim int32Varint
  have h1 := hv (strBytes b.key).length
  have h2 := hv b.value.length
  have h3 := hv (b.type.signExtend 64).toNat
  simp only [List.length_append]
  split <;> split <;> split <;> simp only [List.length_nil, List.length_cons, List.length_append] <;> omega

theorem kvFromBytes_size {bs : Bytes} {b : Buffer} (h : kvFromBytes bs = some b) : (kvToBytes b).length ≤ bs.length + 33 := by
  have h1 := kvLoop_payload h
  have h2 := kvToBytes_le b
  have h3 : payload ⟨"", 0, []⟩ = 0 := by decide
  omega

/-! ### Codecs -/

/-- The largest file considered: 64 bytes below 4 GiB. -/
def maxFile : Nat := 2 ^ 32 - 64

/-- A record whose length field does not overflow. -/
def SmallRec (b : Buffer) : Prop := (kvToBytes b).length + 13 < 2 ^ 32

/-- Two codecs that do the same on records and data of less than 4 GiB. -/
structure Agree (c c' : Codec) : Prop where
  enc : ∀ b pos, SmallRec b → c'.enc b pos = c.enc b pos
  enc_len : ∀ b pos r, SmallRec b → c.enc b pos = some r → 0 < r.length ∧ r.length < 2 ^ 32
  dec : ∀ data pos, data.length ≤ maxFile → c'.dec data pos = c.dec data pos
  dec_len : ∀ data pos ob len, c.dec data pos = .ok ob len → 0 < len
  dec_small : ∀ data pos b len, data.length ≤ maxFile → c.dec data pos = .ok (some b) len → SmallRec b

theorem Build.add_small (b : Build) {n x y : Nat} (h : x + y < n) : b.add n x y = some (x + y) := by
  unfold Build.add; rw [if_pos h]

theorem agree_crc (b : Build) : Agree crcCodec (b.crcCodec) where
  enc := by
    intro buf pos h
    unfold SmallRec at h
    show b.crcEnc buf pos = Mmkv.crcEnc buf pos
    unfold Build.crcEnc Mmkv.crcEnc
    simp only []
    rw [Nat.mod_eq_of_lt (by omega), b.add_small (by omega)]
  enc_len := by
    intro buf pos r h hr
    have hr : Mmkv.crcEnc buf pos = some r := hr
    unfold Mmkv.crcEnc at hr
    injection hr with hr; subst hr
    unfold SmallRec at h
    simp; omega
  dec := by
    intro data pos h
    show b.crcDec data pos = Mmkv.crcDec data pos
    unfold Build.crcDec Mmkv.crcDec
    unfold maxFile at h
    split
    · rfl
    simp only []
    split
    · rfl
    by_cases hl : data.length < 4 + beVal (data.take 4)
    · simp only [if_pos hl]
      split
      · rfl
      split <;> rfl
    · have h1 : ¬ data.length < 4 + beVal (data.take 4) - 1 := by omega
      have h2 : ¬ 2 ^ 32 ≤ 4 + beVal (data.take 4) := by omega
      simp only [if_neg hl, if_neg h1, if_neg h2, b.add_small (show 4 + beVal (data.take 4) < 2 ^ 32 by omega)]
  dec_len := by
    intro data pos ob len h
    have h : Mmkv.crcDec data pos = .ok ob len := h
    unfold Mmkv.crcDec at h
    split at h
    · cases h
    simp only [] at h
    split at h
    · cases h
    split at h
    · cases h
    split at h
    · cases h
    injection h with h1 h2
    omega
  dec_small := by
    intro data pos buf len hd h
    have h : Mmkv.crcDec data pos = .ok (some buf) len := h
    unfold Mmkv.crcDec at h
    split at h
    · cases h
    simp only [] at h
    split at h
    · cases h
    split at h
    · cases h
    split at h
    · cases h
    injection h with h1 h2
    split at h1
    · have := kvFromBytes_size h1
      unfold maxFile at hd
      unfold SmallRec
      simp only [List.length_take, List.length_drop] at this
      omega
    · cases h1

/-- A cipher whose plaintexts are not longer than their ciphertexts. -/
def Cipher.Shrinks (C : Cipher) : Prop := ∀ k n i x p, C.decrypt k n i x = some p → p.length ≤ x.length

theorem agree_aead (b : Build) (S : Stream) (hs : S.cipher.Shrinks) : Agree (aeadCodec S) (b.aeadCodec S) where
  enc := fun _ _ _ => rfl
  enc_len := by
    intro buf pos r h hr
    have hr : aeadEnc S buf pos = some r := hr
    unfold aeadEnc Stream.encrypt at hr
    unfold SmallRec at h
    split at hr
    · cases hr
    rename_i x hx
    injection hr with hr; subst hr
    split at hx
    · cases hx
    injection hx with hx; subst hx
    have := S.cipher.encrypt_length S.key S.nonce pos (kvToBytes buf)
    simp only [List.length_append, beBytes_length]
    omega
  dec := by
    intro data pos h
    show b.aeadDec S data pos = Mmkv.aeadDec S data pos
    unfold Build.aeadDec Mmkv.aeadDec
    unfold maxFile at h
    split
    · rfl
    simp only []
    split
    · rfl
    · have h2 : ¬ 2 ^ 32 ≤ 4 + beVal (data.take 4) := by omega
      simp only [if_neg h2, b.add_small (show 4 + beVal (data.take 4) < 2 ^ 32 by omega)]
      rfl
  dec_len := by
    intro data pos ob len h
    have h : Mmkv.aeadDec S data pos = .ok ob len := h
    unfold Mmkv.aeadDec at h
    split at h
    · cases h
    simp only [] at h
    split at h
    · cases h
    split at h
    · cases h
    injection h with h1 h2
    omega
  dec_small := by
    intro data pos buf len hd h
    have h : Mmkv.aeadDec S data pos = .ok (some buf) len := h
    unfold Mmkv.aeadDec at h
    split at h
    · cases h
    simp only [] at h
    split at h
    · cases h
    split at h
    · cases h
    injection h with h1 h2
    split at h1
    · rename_i plain hp
      have h3 := kvFromBytes_size h1
      unfold Stream.decrypt at hp
      split at hp
      · cases hp
      have h4 := hs _ _ _ _ _ hp
      unfold maxFile at hd
      unfold SmallRec
      simp only [List.length_take, List.length_drop] at h4
      omega
    · cases h1

/-! ### Reading -/

variable {c c' : Codec}

theorem iterLoop_build (b : Build) (ha : Agree c c') : ∀ (fuel pos : Nat) (data : Bytes), data.length ≤ maxFile → pos + data.length < 2 ^ 32 →
    b.iterLoop c' fuel pos data = iterLoop c fuel pos data := by
  intro fuel
  induction fuel with
  | zero => intro pos data _ _; cases data <;> rfl
  | succ fuel ih =>
    intro pos data hd hp
    cases data with
    | nil => rfl
    | cons x bs =>
      simp only [Build.iterLoop, iterLoop, ha.dec _ _ hd]
      cases hc : c.dec (x :: bs) pos with
      | panic => rfl
      | err e => rfl
      | ok ob len =>
        have hlen := ha.dec_len _ _ _ _ hc
        simp only [List.length_cons] at hp hd
        simp only [b.add_small (show pos + 1 < 2 ^ 32 by omega)]
        rw [ih _ _ (by simp only [List.length_drop, List.length_cons]; omega) (by simp only [List.length_drop, List.length_cons]; omega)]

theorem iterLoop_items (ha : Agree c c') : ∀ (fuel pos : Nat) (data : Bytes) (items : List (Option Buffer)), data.length ≤ maxFile → iterLoop c fuel pos data = some items →
    items.length ≤ data.length ∧ ∀ b, some b ∈ items → SmallRec b := by
  intro fuel
  induction fuel with
  | zero =>
    intro pos data items _ h
    cases data with
    | nil => injection h with h; subst h; exact ⟨Nat.le_refl _, fun b hb => absurd hb List.not_mem_nil⟩
    | cons => cases h
  | succ fuel ih =>
    intro pos data items hd h
    cases data with
    | nil => injection h with h; subst h; exact ⟨Nat.le_refl _, fun b hb => absurd hb List.not_mem_nil⟩
    | cons x bs =>
      simp only [iterLoop] at h
      split at h
      · cases h
      · injection h with h; subst h; exact ⟨Nat.zero_le _, fun b hb => absurd hb List.not_mem_nil⟩
      · rename_i ob len hc
        obtain ⟨items', h1, rfl⟩ := Option.map_eq_some_iff.1 h
        have hlen := ha.dec_len _ _ _ _ hc
        have hd' : ((x :: bs).drop len).length ≤ maxFile := by simp only [List.length_drop]; omega
        obtain ⟨g1, g2⟩ := ih _ _ _ hd' h1
        simp only [List.length_drop, List.length_cons] at g1 ⊢
        refine ⟨by omega, fun b hb => ?_⟩
        rcases List.mem_cons.1 hb with rfl | hb
        · exact ha.dec_small _ _ _ _ hd hc
        · exact g2 b hb

/-- Where the header is below the top eight numbers. -/
theorem writeOffset_build (b : Build) {s : WState} {off : Nat} (h : s.writeOffset = some off) : b.writeOffset s = some off := by
  unfold WState.writeOffset at h
  unfold Build.writeOffset
  split at h
  · cases h
  rename_i h1
  split at h
  · cases h
  rename_i h2
  simp only [] at h
  split at h
  · rename_i h3
    rw [if_neg h1, if_neg h2, b.add_small h3, h]
  · cases h

theorem writeOffset_ge {s : WState} {off : Nat} (h : s.writeOffset = some off) : 8 ≤ off ∧ off < 2 ^ 64 ∧ 8 ≤ s.mmLen ∧ s.usizeBytes = 8 ∧ off = beVal (s.file.take 8) + 8 := by
  unfold WState.writeOffset lenOffset at h
  split at h
  · cases h
  rename_i h1
  split at h
  · cases h
  rename_i h2
  simp only [] at h
  split at h
  · rename_i h3
    injection h with h
    exact ⟨by omega, by omega, by omega, by omega, h.symm⟩
  · cases h

theorem readItems_build (b : Build) (ha : Agree c c') {s : WState} {off : Nat} (h : s.writeOffset = some off) (hf : s.file.length ≤ maxFile) :
    b.readItems c' s = s.readItems c := by
  unfold Build.readItems WState.readItems
  rw [writeOffset_build b h, h]
  simp only []
  split
  · rfl
  split
  · rfl
  · apply iterLoop_build b ha
    · simp only [List.length_drop, List.length_take]; omega
    · simp only [List.length_drop, List.length_take]; unfold maxFile at hf; omega

theorem readItems_items (ha : Agree c c') {s : WState} {off : Nat} (h : s.writeOffset = some off) (hf : s.file.length ≤ maxFile)
    {items : List (Option Buffer)} (hi : s.readItems c = some items) :
    off ≤ s.mmLen ∧ items.length + 8 ≤ off ∧ ∀ b, some b ∈ items → SmallRec b := by
  obtain ⟨g1, g2, g3, g4, g5⟩ := writeOffset_ge h
  unfold WState.readItems at hi
  rw [h] at hi
  simp only [] at hi
  split at hi
  · rename_i h1
    unfold lenOffset at h1
    injection hi with hi; subst hi
    exact ⟨by omega, by simp; omega, fun b hb => absurd hb List.not_mem_nil⟩
  split at hi
  · cases hi
  rename_i h1 h2
  obtain ⟨k1, k2⟩ := iterLoop_items ha _ _ _ _ (by simp only [List.length_drop, List.length_take]; omega) hi
  simp only [List.length_drop, List.length_take, lenOffset] at k1
  unfold lenOffset at h1
  exact ⟨by omega, by omega, k2⟩

/-! ### Writing -/

/-- A writer between two jobs: the header points into the mapping, the mapping is in the file, and there are not more records than bytes. -/
structure OffOk (s : WState) : Prop where
  off : ∃ off, s.writeOffset = some off ∧ off ≤ s.mmLen ∧ s.position + 8 ≤ off
  mm : s.mmLen ≤ s.file.length
  page : s.page ≤ maxFile

/-- What a write leaves, whatever its outcome: a header that does not overflow. -/
def HeadOk (s : WState) : Prop := s.writeOffset.isSome = true ∧ s.mmLen ≤ s.file.length ∧ s.page ≤ maxFile

theorem OffOk.head {s : WState} (h : OffOk s) : HeadOk s := by
  obtain ⟨⟨off, h1, _⟩, h2, h3⟩ := h
  exact ⟨by rw [h1]; rfl, h2, h3⟩

theorem storeLen_head {s : WState} {n : Nat} (hu : s.usizeBytes = 8) (h8 : 8 ≤ s.mmLen) (hm : s.mmLen ≤ s.file.length) (hn : n + 8 < 2 ^ 64) :
    ∃ s', s.storeLen n = .done s' ∧ s'.writeOffset = some (n + 8) ∧ s'.mmLen = s.mmLen ∧ s'.file.length = s.file.length ∧ s'.page = s.page ∧ s'.position = s.position ∧
      s'.usizeBytes = 8 ∧ s'.file.take 8 = beBytes 8 n := by
  unfold WState.storeLen lenOffset
  rw [if_neg (by omega)]
  unfold WState.store
  rw [if_pos (by simp; omega)]
  have h1 : (splice s.file 0 (beBytes 8 n)).take 8 = beBytes 8 n := by
    unfold splice
    rw [List.take_zero, List.nil_append, List.take_left' (by simp)]
  refine ⟨_, rfl, ?_, rfl, splice_length _ _ _ (by simp; omega), rfl, rfl, hu, h1⟩
  unfold WState.writeOffset lenOffset
  simp only []
  rw [if_neg (by omega), if_neg (by omega), h1, beVal_beBytes _ _ (by omega), if_pos hn]

/-- An append: the same in every build; and what it leaves. -/
theorem append_build (b : Build) {s : WState} {off : Nat} (h : s.writeOffset = some off) (hm : s.mmLen ≤ s.file.length) (hp : s.page ≤ maxFile) {r : Bytes} (hr : off + r.length < 2 ^ 64) :
    b.append s r = s.append r ∧ HeadOk (s.append r).state ∧
      ∀ s', s.append r = .done s' → s'.writeOffset = some (off + r.length) ∧ off + r.length ≤ s'.mmLen ∧ s'.mmLen ≤ s'.file.length ∧ s'.page = s.page ∧ s'.position = s.position ∧
        s'.file.length = s.file.length := by
  obtain ⟨g1, g2, g3, g4, g5⟩ := writeOffset_ge h
  obtain ⟨s1, e1, e2, e3, e4, e5, e6, e7, e8⟩ := storeLen_head (n := r.length + (off - 8)) g4 g3 hm (by omega)
  have hs : b.sub (2 ^ 64) off lenOffset = some (off - 8) := by
    unfold Build.sub lenOffset; rw [if_pos g1]
  have heq : s.append r = s1.store off r := by
    unfold WState.append lenOffset
    rw [h]
    simp only [e1, Run.andThen_done]
  refine ⟨?_, ?_, ?_⟩
  · rw [heq]
    unfold Build.append
    rw [writeOffset_build b h]
    simp only [hs, b.add_small (show r.length + off < 2 ^ 64 by omega), b.add_small (show r.length + (off - 8) < 2 ^ 64 by omega), e1, Run.andThen_done]
    rw [if_pos (by omega)]
  · rw [heq]
    unfold WState.store
    split
    · rename_i hfit
      have hl : (splice s1.file off r).take 8 = s1.file.take 8 := by
        unfold splice
        rw [List.append_assoc, List.take_append_of_le_length (by simp; omega), List.take_take, Nat.min_eq_left g1]
      refine ⟨?_, ?_, by simp only [Run.state_done]; rw [e5]; exact hp⟩
      · simp only [Run.state_done]
        unfold WState.writeOffset lenOffset
        simp only []
        rw [if_neg (by omega), if_neg (by omega), hl, e8, beVal_beBytes _ _ (by omega), if_pos (by omega)]
        rfl
      · simp only [Run.state_done]
        rw [splice_length _ _ _ (by omega)]
        omega
    · exact ⟨by simp only [Run.state_panic]; rw [e2]; rfl, by simp only [Run.state_panic]; omega, by simp only [Run.state_panic]; rw [e5]; exact hp⟩
  · intro s' hs'
    rw [heq] at hs'
    unfold WState.store at hs'
    split at hs'
    · rename_i hfit
      injection hs' with hs'
      subst hs'
      have hl : (splice s1.file off r).take 8 = s1.file.take 8 := by
        unfold splice
        rw [List.append_assoc, List.take_append_of_le_length (by simp; omega), List.take_take, Nat.min_eq_left g1]
      refine ⟨?_, by simp only []; omega, ?_, e5, e6, ?_⟩
      · unfold WState.writeOffset lenOffset
        simp only []
        rw [if_neg (by omega), if_neg (by omega), hl, e8, beVal_beBytes _ _ (by omega), if_pos (by omega)]
        congr 1
        omega
      · simp only []
        rw [splice_length _ _ _ (by omega)]
        omega
      · simp only []
        rw [splice_length _ _ _ (by omega)]
        omega
    · cases hs'

/-- An expansion: the same in every build; and what it leaves. -/
theorem expand_build (b : Build) {s : WState} {off : Nat} (h : s.writeOffset = some off) (hm : s.mmLen ≤ s.file.length) (hp : s.page ≤ maxFile) (hf : s.file.length ≤ maxFile) :
    b.expand s = s.expand ∧ HeadOk s.expand.state ∧
      ∀ s', s.expand = .done s' → s'.writeOffset = some off ∧ s.mmLen ≤ s'.mmLen ∧ s'.mmLen ≤ s'.file.length ∧ s'.page = s.page ∧ s'.position = s.position ∧
        s.file.length ≤ s'.file.length := by
  obtain ⟨g1, g2, g3, g4, g5⟩ := writeOffset_ge h
  have key : ∀ s', s.expand = .done s' → s'.writeOffset = some off ∧ s.mmLen ≤ s'.mmLen ∧ s'.mmLen ≤ s'.file.length ∧ s'.page = s.page ∧ s'.position = s.position ∧
      s.file.length ≤ s'.file.length := by
    intro s' hs'
    unfold WState.expand at hs'
    simp only [] at hs'
    split at hs'
    · injection hs' with hs'
      subst hs'
      refine ⟨?_, by simp only []; omega, by simp [zeros], rfl, rfl, by simp⟩
      unfold WState.writeOffset lenOffset
      simp only []
      rw [if_neg (by omega), if_neg (by omega), List.take_append_of_le_length (by omega), ← g5, if_pos g2]
    · cases hs'
  refine ⟨?_, ?_, key⟩
  · unfold Build.expand
    unfold maxFile at hf hp
    rw [b.add_small (by omega)]
  · cases he : s.expand with
    | done s' =>
      obtain ⟨k1, k2, k3, k4, k5, k6⟩ := key s' he
      exact ⟨by simp only [Run.state_done]; rw [k1]; rfl, k3, by simp only [Run.state_done]; rw [k4]; exact hp⟩
    | panic s' =>
      have : s' = s := by
        unfold WState.expand at he
        simp only [] at he
        split at he
        · cases he
        · injection he with he; exact he.symm
      subst this
      exact ⟨by simp only [Run.state_panic]; rw [h]; rfl, hm, hp⟩

theorem Within.length_le {es : List Eff} : ∀ {file : Bytes}, Within file es → file.length ≤ (es.foldl Eff.apply file).length := by
  induction es with
  | nil => intro file _; exact Nat.le_refl _
  | cons e es ih =>
    intro file h
    cases e with
    | store off bs =>
      have := ih h.2
      rw [splice_length _ _ _ h.1] at this
      exact this
    | setLen n =>
      have h1 := ih h.2
      have h2 : (Eff.apply file (.setLen n)).length = n := by
        have := h.1
        simp [Eff.apply, zeros]; omega
      rw [h2] at h1
      exact Nat.le_trans h.1 h1

theorem LoggedIn.length_le {s s' : WState} (h : LoggedIn s s') (hm : s.mmLen ≤ s.file.length) : s.file.length ≤ s'.file.length := by
  obtain ⟨_, es, _, h2, h3⟩ := h hm
  rw [← h2]
  exact h3.length_le

/-- An append and the record count. -/
theorem appendBump_build (b : Build) {s : WState} (hs : OffOk s) {r : Bytes} (hr : 0 < r.length) (hr2 : r.length < 2 ^ 32)
    (hfin : (s.append r).state.file.length ≤ maxFile) (hoff : ∀ off, s.writeOffset = some off → off + r.length < 2 ^ 64) :
    ((b.append s r).andThen fun s => b.bump s) = ((s.append r).andThen fun s => .done { s with position := s.position + 1 }) ∧
      HeadOk ((s.append r).andThen fun s => .done { s with position := s.position + 1 }).state ∧
      ∀ s', ((s.append r).andThen fun s => .done { s with position := s.position + 1 }) = .done s' → OffOk s' ∧ s'.file.length = s.file.length := by
  obtain ⟨⟨off, o1, o2, o3⟩, hm, hp⟩ := hs
  obtain ⟨a1, a2, a3⟩ := append_build b o1 hm hp (hoff off o1)
  rw [a1]
  cases he : s.append r with
  | panic s' =>
    rw [he] at a2
    exact ⟨rfl, a2, fun s' h => (by cases h)⟩
  | done s1 =>
    rw [he] at a2 hfin
    obtain ⟨k1, k2, k3, k4, k5, k6⟩ := a3 s1 he
    simp only [Run.state_done] at hfin a2
    unfold maxFile at hfin
    have hb : b.bump s1 = .done { s1 with position := s1.position + 1 } := by
      unfold Build.bump
      rw [b.add_small (by omega)]
    simp only [Run.andThen_done, hb]
    refine ⟨trivial, a2, fun s' h => ?_⟩
    injection h with h
    subst h
    exact ⟨⟨⟨_, k1, k2, by simp only []; omega⟩, k3, by simp only []; rw [k4]; exact hp⟩, k6⟩

theorem trimLoop_build (b : Build) (ha : Agree c c') (maxLen : Nat) : ∀ (bufs : List Buffer) (s : WState), (∀ x ∈ bufs, SmallRec x) → OffOk s →
    (WState.trimLoop c maxLen bufs s).state.file.length ≤ maxFile →
    b.trimLoop c' maxLen bufs s = WState.trimLoop c maxLen bufs s ∧ HeadOk (WState.trimLoop c maxLen bufs s).state ∧
      ∀ s', WState.trimLoop c maxLen bufs s = .done s' → OffOk s' := by
  intro bufs
  induction bufs with
  | nil =>
    intro s _ hs _
    exact ⟨rfl, hs.head, fun s' h => by injection h with h; subst h; exact hs⟩
  | cons x bufs ih =>
    intro s hx hs hfin
    have hfs : s.file.length ≤ maxFile := Nat.le_trans ((loggedIn_trimLoop (c := c) maxLen (x :: bufs) s).length_le hs.mm) hfin
    obtain ⟨⟨off, o1, o2, o3⟩, hm, hp⟩ := hs
    unfold Build.trimLoop
    unfold WState.trimLoop at hfin ⊢
    rw [ha.enc _ _ (hx x List.mem_cons_self)]
    cases he : c.enc x s.position with
    | none => exact ⟨rfl, OffOk.head ⟨⟨off, o1, o2, o3⟩, hm, hp⟩, fun s' h => (by cases h)⟩
    | some bytes =>
      obtain ⟨e1, e2⟩ := ha.enc_len _ _ _ (hx x List.mem_cons_self) he
      rw [he] at hfin
      have hlt : off + bytes.length < 2 ^ 64 := by unfold maxFile at hfs; omega
      simp only [o1, writeOffset_build b o1, b.add_small hlt] at hfin ⊢
      -- the page that may have to be added first
      have hfirst : (if off + bytes.length > maxLen then b.expand s else .done s) = (if off + bytes.length > maxLen then s.expand else .done s) ∧
          HeadOk (if off + bytes.length > maxLen then s.expand else .done s).state ∧
          ∀ s1, (if off + bytes.length > maxLen then s.expand else .done s) = .done s1 → OffOk s1 ∧ s1.writeOffset = some off := by
        split
        · obtain ⟨k1, k2, k3⟩ := expand_build b o1 hm hp hfs
          refine ⟨k1, k2, fun s1 h => ?_⟩
          obtain ⟨j1, j2, j3, j4, j5, j6⟩ := k3 s1 h
          exact ⟨⟨⟨off, j1, by omega, by omega⟩, j3, by omega⟩, j1⟩
        · exact ⟨rfl, OffOk.head ⟨⟨off, o1, o2, o3⟩, hm, hp⟩, fun s1 h => by injection h with h; subst h; exact ⟨⟨⟨off, o1, o2, o3⟩, hm, hp⟩, o1⟩⟩
      obtain ⟨f1, f2, f3⟩ := hfirst
      rw [f1]
      cases hf : (if off + bytes.length > maxLen then s.expand else Run.done s) with
      | panic s1 => rw [hf] at f2; exact ⟨rfl, f2, fun s' h => (by cases h)⟩
      | done s1 =>
        rw [hf] at hfin
        obtain ⟨q1, q2⟩ := f3 s1 hf
        simp only [Run.andThen_done] at hfin ⊢
        have hA : (s1.append bytes).state.file.length ≤ maxFile := by
          refine Nat.le_trans ?_ hfin
          cases hap : s1.append bytes with
          | panic s2 => exact Nat.le_refl _
          | done s2 =>
            simp only [Run.andThen_done, Run.state_done]
            have hmm : s2.mmLen ≤ s2.file.length := ((append_build b q2 q1.mm q1.page hlt).2.2 s2 hap).2.2.1
            exact (loggedIn_trimLoop (c := c) maxLen bufs { s2 with position := s2.position + 1 }).length_le hmm
        obtain ⟨m1, m2, m3⟩ := appendBump_build b q1 e1 e2 hA (fun o ho => by rw [q2] at ho; injection ho with ho; subst ho; exact hlt)
        rw [m1]
        cases hab : ((s1.append bytes).andThen fun s => Run.done { s with position := s.position + 1 }) with
        | panic s2 => rw [hab] at m2; exact ⟨rfl, m2, fun s' h => (by cases h)⟩
        | done s2 =>
          rw [hab] at hfin
          simp only [Run.andThen_done] at hfin ⊢
          exact ih s2 (fun y hy => hx y (List.mem_cons_of_mem _ hy)) (m3 s2 hab).1 hfin

/-- **One background write, in every build**: the same, panics included, as long as the file stays below 4 GiB. -/
theorem write_build (b : Build) (ha : Agree c c') {order : List Buffer → List Buffer} (ho : ∀ l, (order l).Perm l) {buf : Buffer} (hb : SmallRec buf) (dup : Bool) {s : WState} (hs : OffOk s)
    (hfin : (s.write c order buf dup).state.file.length ≤ maxFile) :
    b.write c' order buf dup s = s.write c order buf dup ∧ HeadOk (s.write c order buf dup).state ∧ ∀ s', s.write c order buf dup = .done s' → OffOk s' := by
  have hfs : s.file.length ≤ maxFile := Nat.le_trans ((loggedIn_write (c := c) order buf dup s).length_le hs.mm) hfin
  unfold Build.write
  unfold WState.write at hfin ⊢
  rw [ha.enc _ _ hb]
  cases he : c.enc buf s.position with
  | none => exact ⟨rfl, hs.head, fun s' h => (by cases h)⟩
  | some data =>
    obtain ⟨e1, e2⟩ := ha.enc_len _ _ _ hb he
    rw [he] at hfin
    obtain ⟨⟨off, o1, o2, o3⟩, hm, hp⟩ := hs
    have hlt : data.length + off < 2 ^ 64 := by unfold maxFile at hfs; omega
    simp only [o1, writeOffset_build b o1, b.add_small hlt] at hfin ⊢
    have h0 : OffOk (if dup = true then { s with needTrim := true } else s) ∧ (if dup = true then { s with needTrim := true } else s).writeOffset = some off ∧
        (if dup = true then { s with needTrim := true } else s).file.length ≤ maxFile := by
      split
      · exact ⟨⟨⟨off, o1, o2, o3⟩, hm, hp⟩, o1, hfs⟩
      · exact ⟨⟨⟨off, o1, o2, o3⟩, hm, hp⟩, o1, hfs⟩
    obtain ⟨hs0, o0, hf0⟩ := h0
    generalize (if dup = true then { s with needTrim := true } else s) = s0 at hs0 o0 hf0 hfin ⊢
    have hbd : ∀ s1 : WState, OffOk s1 → s1.writeOffset = some off → (∀ o, s1.writeOffset = some o → o + data.length < 2 ^ 64) := by
      intro s1 _ h1 o h2
      rw [h1] at h2; injection h2 with h2; omega
    split
    · rename_i hfit
      rw [if_pos hfit] at hfin
      have hA : (s0.append data).state.file.length ≤ maxFile := by
        refine Nat.le_trans ?_ hfin
        cases s0.append data <;> exact Nat.le_refl _
      obtain ⟨m1, m2, m3⟩ := appendBump_build b hs0 e1 e2 hA (hbd s0 hs0 o0)
      exact ⟨m1, m2, fun s' h => (m3 s' h).1⟩
    · rename_i hfit
      rw [if_neg hfit] at hfin
      split
      · rename_i hnt
        rw [if_pos hnt] at hfin
        rw [readItems_build b ha o0 hf0]
        cases hi : s0.readItems c with
        | none => exact ⟨rfl, hs0.head, fun s' h => (by cases h)⟩
        | some items =>
          rw [hi] at hfin
          simp only [] at hfin ⊢
          obtain ⟨g1, g2, g3, g4, g5⟩ := writeOffset_ge o0
          obtain ⟨s1, r1, r2, r3, r4, r5, r6, r7, r8⟩ := storeLen_head (n := 0) g4 g3 hs0.mm (by omega)
          have hreset : s0.reset = .done s1 := r1
          rw [hreset] at hfin ⊢
          simp only [Run.andThen_done] at hfin ⊢
          have hok : OffOk { s1 with position := 0 } := ⟨⟨8, by exact r2, by simp only []; omega, Nat.le_refl _⟩, by simp only []; rw [r3, r4]; exact hs0.mm, by simp only []; rw [r5]; exact hs0.page⟩
          have hall : ∀ x ∈ order (mapStep (intoMap items).1 (some buf)).values, SmallRec x := by
            intro x hx
            have := mem_snapshot ((ho _).mem_iff.1 hx)
            rcases List.mem_append.1 this with h1 | h1
            · exact (readItems_items ha o0 hf0 hi).2.2 x h1
            · simp at h1; subst h1; exact hb
          have hT : (WState.trimLoop c s.mmLen (order (mapStep (intoMap items).1 (some buf)).values) { s1 with position := 0 }).state.file.length ≤ maxFile := by
            refine Nat.le_trans ?_ hfin
            cases WState.trimLoop c s.mmLen (order (mapStep (intoMap items).1 (some buf)).values) { s1 with position := 0 } <;> exact Nat.le_refl _
          obtain ⟨t1, t2, t3⟩ := trimLoop_build b ha s.mmLen _ _ hall hok hT
          rw [t1]
          cases ht : WState.trimLoop c s.mmLen (order (mapStep (intoMap items).1 (some buf)).values) { s1 with position := 0 } with
          | panic s2 => rw [ht] at t2; exact ⟨rfl, t2, fun s' h => (by cases h)⟩
          | done s2 =>
            rw [ht] at t2
            refine ⟨rfl, t2, fun s' h => ?_⟩
            simp only [Run.andThen_done] at h
            injection h with h
            subst h
            obtain ⟨k1, k2, k3⟩ := t3 s2 ht
            exact ⟨k1, k2, k3⟩
      · rename_i hnt
        rw [if_neg hnt] at hfin
        obtain ⟨k1, k2, k3⟩ := expand_build b o0 hs0.mm hs0.page hf0
        rw [k1]
        cases hx : s0.expand with
        | panic s1 => rw [hx] at k2; exact ⟨rfl, k2, fun s' h => (by cases h)⟩
        | done s1 =>
          obtain ⟨j1, j2, j3, j4, j5, j6⟩ := k3 s1 hx
          rw [hx] at hfin
          simp only [Run.andThen_done] at hfin ⊢
          have hok : OffOk s1 := by
            obtain ⟨⟨o', p1, p2, p3⟩, _, p4⟩ := hs0
            rw [o0] at p1; injection p1 with p1; subst p1
            exact ⟨⟨off, j1, by omega, by omega⟩, j3, by omega⟩
          have hA : (s1.append data).state.file.length ≤ maxFile := by
            refine Nat.le_trans ?_ hfin
            cases s1.append data <;> exact Nat.le_refl _
          obtain ⟨m1, m2, m3⟩ := appendBump_build b hok e1 e2 hA (hbd s1 hok j1)
          exact ⟨m1, m2, fun s' h => (m3 s' h).1⟩

/-! ### Opening, and whole histories -/

theorem open_build (b : Build) (ha : Agree c c') {page : Nat} {file : Bytes} {u : Nat} {q : Option Nat} (hp : page ≤ maxFile) (hf : file.length ≤ maxFile)
    (hh : beVal (file.take 8) + 8 < 2 ^ 64) :
    b.openStore c' page file u q = openStore c page file u q ∧ ∀ o, openStore c page file u q = some o → OffOk o.ws := by
  have hf' : (configNew page file).length ≤ maxFile := by
    unfold configNew; split
    · simpa [zeros] using hp
    · exact hf
  have hh' : beVal ((configNew page file).take 8) + 8 < 2 ^ 64 := by
    unfold configNew; split
    · have : (zeros page).take 8 = zeros (min 8 page) := by simp [zeros, List.take_replicate]
      rw [this]
      rw [beVal_zeros]; omega
    · exact hh
  unfold Build.openStore openStore
  simp only []
  generalize configNew page file = f at hf' hh'
  split
  · exact ⟨rfl, fun o h => (by cases h)⟩
  by_cases hm : f.length < 8
  · have h1 : b.readItems c' { file := f, mmLen := f.length, page := page, position := 0, needTrim := false, usizeBytes := u, quota := q } = none := by
      unfold Build.readItems Build.writeOffset lenOffset; rw [if_pos (by simpa using hm)]
    have h2 : WState.readItems { file := f, mmLen := f.length, page := page, position := 0, needTrim := false, usizeBytes := u, quota := q } c = none := by
      unfold WState.readItems WState.writeOffset lenOffset; rw [if_pos (by simpa using hm)]
    rw [h1, h2]
    exact ⟨rfl, fun o h => (by cases h)⟩
  by_cases hu : u = 8
  · have hw : WState.writeOffset { file := f, mmLen := f.length, page := page, position := 0, needTrim := false, usizeBytes := u, quota := q } = some (beVal (f.take 8) + 8) := by
      unfold WState.writeOffset lenOffset
      rw [if_neg (by simpa using hm), if_neg (by simpa using hu)]
      simp only []
      rw [if_pos hh']
    rw [readItems_build b ha hw hf']
    cases hi : WState.readItems { file := f, mmLen := f.length, page := page, position := 0, needTrim := false, usizeBytes := u, quota := q } c with
    | none => exact ⟨rfl, fun o h => (by cases h)⟩
    | some items =>
      obtain ⟨g1, g2, g3⟩ := readItems_items ha hw hf' hi
      have hmod : items.length % 2 ^ 32 = items.length := Nat.mod_eq_of_lt (by simp only at g1; unfold maxFile at hf'; omega)
      refine ⟨by simp only [hmod]; rfl, fun o h => ?_⟩
      injection h with h
      subst h
      exact ⟨⟨_, hw, g1, g2⟩, Nat.le_refl _, hp⟩
  · have h1 : b.readItems c' { file := f, mmLen := f.length, page := page, position := 0, needTrim := false, usizeBytes := u, quota := q } = none := by
      unfold Build.readItems Build.writeOffset lenOffset; rw [if_neg (by simpa using hm), if_pos (by simpa using hu)]
    have h2 : WState.readItems { file := f, mmLen := f.length, page := page, position := 0, needTrim := false, usizeBytes := u, quota := q } c = none := by
      unfold WState.readItems WState.writeOffset lenOffset; rw [if_neg (by simpa using hm), if_pos (by simpa using hu)]
    rw [h1, h2]
    exact ⟨rfl, fun o h => (by cases h)⟩

/-- Calls with keys and records below 4 GiB, and iteration orders that are orders. -/
def Ev.Sane : Ev ι → Prop
  | .put k t bs => SmallRec (Buffer.ofRaw k t bs)
  | .delete k => SmallRec (Buffer.deleted k)
  | .io o => ∀ l, (o l).Perm l
  | _ => True

/-- The invariant of a history. -/
structure BInv (s : Inst ι) : Prop where
  head : HeadOk s.lp.cb.ws
  alive : s.lp.io ≠ .unwinding → s.lp.io ≠ .dead → OffOk s.lp.cb.ws
  jobs : ∀ x dup, Job.write x dup ∈ s.lp.queue ++ s.lp.buf → SmallRec x
  next : ∀ x dup, s.phase = .push (.write x dup) → SmallRec x
  small : s.lp.cb.ws.file.length ≤ maxFile

theorem openAt_build (b : Build) {codecs codecs' : ι → Codec} (ha : ∀ i, Agree (codecs i) (codecs' i)) (i : ι) {page : Nat} {file : Bytes} {u : Nat} {q : Option Nat} (hp : page ≤ maxFile)
    (hf : file.length ≤ maxFile) (hh : beVal (file.take 8) + 8 < 2 ^ 64) :
    b.openAt codecs' i page file u q = Inst.openAt codecs i page file u q ∧ ∀ s, Inst.openAt codecs i page file u q = some s → BInv s := by
  obtain ⟨h1, h2⟩ := open_build b (ha i) (u := u) (q := q) hp hf hh
  unfold Build.openAt Inst.openAt
  rw [h1]
  refine ⟨rfl, fun s h => ?_⟩
  split at h
  · cases h
  rename_i o ho
  injection h with h
  subst h
  have hok := h2 o ho
  refine ⟨hok.head, fun _ _ => hok, fun x dup hx => by simp [Looper.new] at hx, fun x dup hx => (by cases hx), ?_⟩
  unfold openStore at ho
  simp only [] at ho
  split at ho
  · cases ho
  split at ho
  · cases ho
  injection ho with ho
  subst ho
  show (configNew page file).length ≤ maxFile
  unfold configNew; split
  · simpa [zeros] using hp
  · exact hf

theorem step_build (b : Build) {codecs codecs' : ι → Codec} (ha : ∀ i, Agree (codecs i) (codecs' i)) {s : Inst ι} (h : BInv s) {e : Ev ι} (he : e.Sane)
    (hfin : ∀ s' r, Inst.step codecs s e = some (s', r) → s'.lp.cb.ws.file.length ≤ maxFile) :
    b.step codecs' s e = Inst.step codecs s e ∧ ∀ s' r, Inst.step codecs s e = some (s', r) → BInv s' := by
  cases e with
  | put key token bytes =>
    refine ⟨rfl, fun s' r hs => ?_⟩
    simp only [Inst.step] at hs
    split at hs
    · cases hs
    split at hs
    · injection hs with hs; injection hs with h1 h2; subst h1; exact h
    split at hs
    · injection hs with hs; injection hs with h1 h2; subst h1; exact h
    · injection hs with hs; injection hs with h1 h2; subst h1
      exact ⟨h.head, h.alive, h.jobs, fun x dup hx => by simp only [Phase.push.injEq, Job.write.injEq] at hx; obtain ⟨rfl, _⟩ := hx; exact he, h.small⟩
  | delete key =>
    refine ⟨rfl, fun s' r hs => ?_⟩
    simp only [Inst.step] at hs
    split at hs
    · cases hs
    split at hs
    · injection hs with hs; injection hs with h1 h2; subst h1; exact h
    split at hs
    · injection hs with hs; injection hs with h1 h2; subst h1; exact h
    split at hs
    · injection hs with hs; injection hs with h1 h2; subst h1; exact h
    · injection hs with hs; injection hs with h1 h2; subst h1
      exact ⟨h.head, h.alive, h.jobs, fun x dup hx => by simp only [Phase.push.injEq, Job.write.injEq] at hx; obtain ⟨rfl, _⟩ := hx; exact he, h.small⟩
  | clear =>
    refine ⟨rfl, fun s' r hs => ?_⟩
    simp only [Inst.step] at hs
    split at hs
    · cases hs
    split at hs
    · injection hs with hs; injection hs with h1 h2; subst h1; exact h
    split at hs
    · injection hs with hs; injection hs with h1 h2; subst h1
      exact ⟨h.head, h.alive, h.jobs, fun x dup hx => (by cases hx), h.small⟩
    · injection hs with hs; injection hs with h1 h2; subst h1
      exact ⟨h.head, h.alive, h.jobs, fun x dup hx => (by cases hx), h.small⟩
  | drop =>
    refine ⟨rfl, fun s' r hs => ?_⟩
    simp only [Inst.step] at hs
    split at hs
    · cases hs
    · injection hs with hs; injection hs with h1 h2; subst h1
      exact ⟨h.head, h.alive, h.jobs, fun x dup hx => (by cases hx), h.small⟩
  | io o =>
    simp only [Build.step, Inst.step] at hfin ⊢
    have key : Looper.ioStep (fun o j cb => b.execJob (codecs' s.idx) o j cb) o s.lp = Looper.ioStep (fun o j cb => Mmkv.execJob (codecs s.idx) o j cb) o s.lp ∧
        ∀ lp, Looper.ioStep (fun o j cb => Mmkv.execJob (codecs s.idx) o j cb) o s.lp = some lp → BInv { s with lp := lp } := by
      have quiet : ∀ lp : Looper.St Order Job Cb, lp.cb = s.lp.cb → (∀ x, x ∈ lp.queue ++ lp.buf → x ∈ s.lp.queue ++ s.lp.buf) →
          (lp.io ≠ .unwinding → lp.io ≠ .dead → s.lp.io ≠ .unwinding ∧ s.lp.io ≠ .dead) → BInv { s with lp := lp } := by
        intro lp h1 h2 h3
        refine ⟨by simp only [h1]; exact h.head, fun k1 k2 => ?_, fun x dup hx => h.jobs x dup (h2 _ hx), h.next, by simp only [h1]; exact h.small⟩
        obtain ⟨j1, j2⟩ := h3 k1 k2
        simp only [h1]
        exact h.alive j1 j2
      unfold Looper.ioStep
      cases hio : s.lp.io with
      | recv =>
        refine ⟨rfl, fun lp hlp => ?_⟩
        simp only [] at hlp
        split at hlp
        · injection hlp with hlp; subst hlp; exact quiet _ rfl (fun x hx => hx) (fun _ _ => by simp [hio])
        · injection hlp with hlp; subst hlp; exact quiet _ rfl (fun x hx => hx) (fun _ _ => by simp [hio])
        · split at hlp
          · cases hlp
          · injection hlp with hlp; subst hlp; exact quiet _ rfl (fun x hx => hx) (fun _ _ => by simp [hio])
      | swap =>
        refine ⟨rfl, fun lp hlp => ?_⟩
        injection hlp with hlp; subst hlp
        refine quiet _ rfl (fun x hx => ?_) (fun _ _ => by simp [hio])
        rcases List.mem_append.1 hx with hx | hx
        · exact List.mem_append_right _ hx
        · exact List.mem_append_left _ hx
      | unwinding => exact ⟨rfl, fun lp hlp => by injection hlp with hlp; subst hlp; exact quiet _ rfl (fun x hx => hx) (fun k1 k2 => absurd rfl k2)⟩
      | exited => exact ⟨rfl, fun lp hlp => by cases hlp⟩
      | dead => exact ⟨rfl, fun lp hlp => by cases hlp⟩
      | run =>
        cases hbuf : s.lp.buf with
        | nil => exact ⟨rfl, fun lp hlp => by injection hlp with hlp; subst hlp; exact quiet _ rfl (fun x hx => by rw [hbuf]; exact hx) (fun _ _ => by simp [hio])⟩
        | cons j rest =>
          have hrest : ∀ x, x ∈ s.lp.queue ++ rest → x ∈ s.lp.queue ++ s.lp.buf := by
            intro x hx
            rw [hbuf]
            rcases List.mem_append.1 hx with hx | hx
            · exact List.mem_append_left _ hx
            · exact List.mem_append_right _ (List.mem_cons_of_mem _ hx)
          cases j with
          | remove =>
            refine ⟨rfl, fun lp hlp => ?_⟩
            simp only [Mmkv.execJob] at hlp
            injection hlp with hlp; subst hlp
            exact ⟨h.head, fun k1 k2 => h.alive (by simp [hio]) (by simp [hio]), fun x dup hx => h.jobs x dup (hrest _ hx), h.next, h.small⟩
          | write x dup =>
            have hx : SmallRec x := h.jobs x dup (by rw [hbuf]; simp)
            have hfile : (s.lp.cb.ws.write (codecs s.idx) o x dup).state.file.length ≤ maxFile := by
              unfold Looper.ioStep at hfin
              rw [hio] at hfin
              simp only [hbuf, Mmkv.execJob] at hfin
              cases hw : s.lp.cb.ws.write (codecs s.idx) o x dup with
              | done ws => rw [hw] at hfin; exact hfin _ _ rfl
              | panic ws => rw [hw] at hfin; exact hfin _ _ rfl
            obtain ⟨w1, w2, w3⟩ := write_build b (ha s.idx) he hx dup (h.alive (by simp [hio]) (by simp [hio])) hfile
            simp only [Build.execJob, Mmkv.execJob, w1]
            refine ⟨rfl, fun lp hlp => ?_⟩
            cases hw : s.lp.cb.ws.write (codecs s.idx) o x dup with
            | done ws =>
              rw [hw] at hlp w2 hfile
              injection hlp with hlp; subst hlp
              exact ⟨w2, fun _ _ => w3 ws hw, fun y d hy => h.jobs y d (hrest _ hy), h.next, hfile⟩
            | panic ws =>
              rw [hw] at hlp w2 hfile
              injection hlp with hlp; subst hlp
              exact ⟨w2, fun k1 _ => absurd rfl k1, fun y d hy => h.jobs y d (hrest _ hy), h.next, hfile⟩
    rw [key.1]
    refine ⟨rfl, fun s' r hs => ?_⟩
    split at hs
    · cases hs
    · rename_i lp hlp
      injection hs with hs; injection hs with h1 h2; subst h1
      exact key.2 lp hlp
  | api i =>
    have hpush : ∀ j ph, (∀ x dup, j = Job.write x dup → SmallRec x) → (∀ x dup, ph = Phase.push (.write x dup) → SmallRec x) → BInv { s with lp := Looper.push s.lp j, phase := ph } := by
      intro j ph hj hph
      have e1 : (Looper.push s.lp j).cb = s.lp.cb := by unfold Looper.push; split <;> rfl
      have e2 : (Looper.push s.lp j).io = s.lp.io := by unfold Looper.push; split <;> rfl
      have e3 : (Looper.push s.lp j).queue = s.lp.queue ++ [j] := by unfold Looper.push; split <;> rfl
      have e4 : (Looper.push s.lp j).buf = s.lp.buf := by unfold Looper.push; split <;> rfl
      refine ⟨by simp only [e1]; exact h.head, by simp only [e1, e2]; exact h.alive, fun x dup hx => ?_, hph, by simp only [e1]; exact h.small⟩
      simp only [e3, e4] at hx
      rcases List.mem_append.1 hx with hx | hx
      · rcases List.mem_append.1 hx with hx | hx
        · exact h.jobs x dup (List.mem_append_left _ hx)
        · simp at hx; exact hj x dup hx.symm
      · exact h.jobs x dup (List.mem_append_right _ hx)
    have hsend : ∀ (lp : Looper.St Order Job Cb) ph, lp.cb = s.lp.cb → lp.io = s.lp.io → lp.queue = s.lp.queue → lp.buf = s.lp.buf → (∀ x dup, ph = Phase.push (.write x dup) → SmallRec x) →
        BInv { s with lp := lp, phase := ph } := by
      intro lp ph e1 e2 e3 e4 hph
      exact ⟨by simp only [e1]; exact h.head, by simp only [e1, e2]; exact h.alive, by simp only [e3, e4]; exact h.jobs, hph, by simp only [e1]; exact h.small⟩
    have hs1 : (Looper.send s.lp).1.cb = s.lp.cb ∧ (Looper.send s.lp).1.io = s.lp.io ∧ (Looper.send s.lp).1.queue = s.lp.queue ∧ (Looper.send s.lp).1.buf = s.lp.buf := by
      unfold Looper.send; split
      · split <;> exact ⟨rfl, rfl, rfl, rfl⟩
      · exact ⟨rfl, rfl, rfl, rfl⟩
    have hq1 : (Looper.quitSend s.lp).1.cb = s.lp.cb ∧ (Looper.quitSend s.lp).1.io = s.lp.io ∧ (Looper.quitSend s.lp).1.queue = s.lp.queue ∧ (Looper.quitSend s.lp).1.buf = s.lp.buf := by
      unfold Looper.quitSend; split
      · split <;> exact ⟨rfl, rfl, rfl, rfl⟩
      · exact ⟨rfl, rfl, rfl, rfl⟩
    obtain ⟨s1, s2, s3, s4⟩ := hs1
    obtain ⟨q1, q2, q3, q4⟩ := hq1
    by_cases hph : s.phase = .clrOpen
    · have hd : s.disk.length ≤ maxFile ∧ beVal (s.disk.take 8) + 8 < 2 ^ 64 := by
        unfold Inst.disk
        split
        · exact ⟨Nat.zero_le _, by decide⟩
        · refine ⟨h.small, ?_⟩
          obtain ⟨k1, k2, k3⟩ := h.head
          obtain ⟨off, ho⟩ := Option.isSome_iff_exists.1 k1
          obtain ⟨_, g2, _, _, g5⟩ := writeOffset_ge ho
          omega
      obtain ⟨o1, o2⟩ := openAt_build b ha (if s.lp.cb.removed then i else s.idx) (page := s.lp.cb.ws.page) (u := s.lp.cb.ws.usizeBytes) (q := s.lp.cb.ws.quota) h.head.2.2 hd.1 hd.2
      simp only [Build.step, Inst.step, hph, if_true, o1]
      refine ⟨rfl, fun s' r hs => ?_⟩
      split at hs
      · injection hs with hs; injection hs with h1 h2; subst h1
        exact ⟨h.head, h.alive, h.jobs, fun x dup hx => (by cases hx), h.small⟩
      · rename_i s2 ho
        have hb2 := o2 s2 ho
        split at hs
        · injection hs with hs; injection hs with h1 h2; subst h1; exact hb2
        split at hs
        · injection hs with hs; injection hs with h1 h2; subst h1; exact hb2
        split at hs
        · injection hs with hs; injection hs with h1 h2; subst h1; exact ⟨hb2.head, hb2.alive, hb2.jobs, hb2.next, hb2.small⟩
        · cases hs
    · have hcod : Inst.step codecs' s (.api i) = Inst.step codecs s (.api i) := by
        simp only [Inst.step]
        cases hp2 : s.phase <;> first | rfl | exact absurd hp2 hph
      simp only [Build.step, if_neg hph, hcod]
      refine ⟨trivial, fun s' r hs => ?_⟩
      simp only [Inst.step] at hs
      split at hs
      · cases hs
      · cases hs
      · rename_i j hj
        injection hs with hs; injection hs with h1 h2; subst h1
        exact hpush j _ (fun x dup e => h.next x dup (by rw [hj, e])) (fun x dup e => (by cases e))
      · injection hs with hs; injection hs with h1 h2; subst h1
        exact hsend _ _ s1 s2 s3 s4 (fun x dup e => (by cases e))
      · injection hs with hs; injection hs with h1 h2; subst h1
        exact hpush _ _ (fun x dup e => (by cases e)) (fun x dup e => (by cases e))
      · split at hs
        · injection hs with hs; injection hs with h1 h2; subst h1; exact hsend _ _ s1 s2 s3 s4 (fun x dup e => (by cases e))
        · injection hs with hs; injection hs with h1 h2; subst h1; exact hsend _ _ s1 s2 s3 s4 (fun x dup e => (by cases e))
      · split at hs
        · injection hs with hs; injection hs with h1 h2; subst h1; exact hsend _ _ q1 q2 q3 q4 (fun x dup e => (by cases e))
        · injection hs with hs; injection hs with h1 h2; subst h1; exact hsend _ _ q1 q2 q3 q4 (fun x dup e => (by cases e))
      · split at hs
        · injection hs with hs; injection hs with h1 h2; subst h1
          exact ⟨h.head, h.alive, h.jobs, fun x dup hx => (by cases hx), h.small⟩
        split at hs
        · injection hs with hs; injection hs with h1 h2; subst h1
          exact ⟨h.head, h.alive, h.jobs, fun x dup hx => (by cases hx), h.small⟩
        · cases hs
      · exact absurd (by assumption) hph

end Mmkv
