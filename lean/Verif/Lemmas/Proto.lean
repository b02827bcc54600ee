import Verif.Model.Proto
import Verif.Lemmas.Bytes
/-! Varints and the protobuf message: helper lemmas. -/

namespace Mmkv

theorem varintFuel_read (fuel v : Nat) (rest : Bytes) (h : v < 128 ^ fuel) (hf : 0 < fuel) :
    readVarintFuel fuel (varintFuel fuel v ++ rest) = some (v, rest) := by
  induction fuel generalizing v with
  | zero => omega
  | succ fuel ih =>
    unfold varintFuel
    split
    · rename_i hv
      have : (UInt8.ofNat v).toNat = v := by rw [UInt8.toNat_ofNat']; omega
      simp [readVarintFuel, this, hv]
    · rename_i hv
      have hb : (UInt8.ofNat (v % 128 + 128)).toNat = v % 128 + 128 := by rw [UInt8.toNat_ofNat']; omega
      have hfuel : 0 < fuel := by
        rcases fuel with _ | f
        · simp at h; omega
        · omega
      have hd : v / 128 < 128 ^ fuel := by
        rw [Nat.pow_succ] at h
        exact Nat.div_lt_of_lt_mul (by rw [Nat.mul_comm]; exact h)
      simp only [List.cons_append, readVarintFuel, hb]
      rw [if_neg (by omega), ih _ hd hfuel]
      simp; omega

theorem readVarint_varint (v : Nat) (rest : Bytes) (h : v < 2 ^ 64) :
    readVarint (varint v ++ rest) = some (v, rest) := by
  unfold readVarint varint
  rw [varintFuel_read 10 v rest (by omega) (by omega)]
  simp [h]

theorem varintFuel_length_le (fuel v : Nat) : (varintFuel fuel v).length ≤ fuel := by
  induction fuel generalizing v with
  | zero => simp [varintFuel]
  | succ n ih => unfold varintFuel; split <;> simp [ih]

theorem varint_ne_nil (v : Nat) : varint v ≠ [] := by
  unfold varint varintFuel; split <;> simp

theorem readLenDelim_lenDelim (p rest : Bytes) (h : p.length < 2 ^ 64) :
    readLenDelim (lenDelim p ++ rest) = some (p, rest) := by
  unfold readLenDelim lenDelim
  rw [List.append_assoc, readVarint_varint _ _ h]
  simp

theorem readVarint_single (b : UInt8) (rest : Bytes) (h : b.toNat < 128) :
    readVarint (b :: rest) = some (b.toNat, rest) := by
  unfold readVarint readVarintFuel
  simp only [h, if_true]
  rw [if_pos (by omega)]

theorem int32_trunc (t : BitVec 32) : (t.signExtend 64).setWidth 32 = t := by
  apply BitVec.eq_of_getLsbD_eq
  intro i hi
  simp [BitVec.getLsbD_signExtend, hi]
  omega

/-- the three fields, one at a time -/
theorem kvField_key (acc : Buffer) (k : String) (rest : Bytes) (h : (strBytes k).length < 2 ^ 64) :
    kvField acc ((10 : UInt8) :: (lenDelim (strBytes k) ++ rest)) = some ({ acc with key := k }, rest) := by
  unfold kvField
  rw [readVarint_single _ _ (by decide)]
  simp [readLenDelim_lenDelim _ _ h]

theorem kvField_type (acc : Buffer) (t : BitVec 32) (rest : Bytes) :
    kvField acc ((16 : UInt8) :: (int32Varint t ++ rest)) = some ({ acc with type := t }, rest) := by
  unfold kvField
  rw [readVarint_single _ _ (by decide)]
  simp [int32Varint, readVarint_varint _ _ (BitVec.isLt _), int32_trunc]

theorem kvField_value (acc : Buffer) (v : Bytes) (rest : Bytes) (h : v.length < 2 ^ 64) :
    kvField acc ((26 : UInt8) :: (lenDelim v ++ rest)) = some ({ acc with value := v }, rest) := by
  unfold kvField
  rw [readVarint_single _ _ (by decide)]
  simp [readLenDelim_lenDelim _ _ h]

theorem kvLoop_step {fuel : Nat} {acc acc' : Buffer} {b : UInt8} {bs rest : Bytes}
    (h : kvField acc (b :: bs) = some (acc', rest)) :
    kvLoop (fuel + 1) acc (b :: bs) = kvLoop fuel acc' rest := by
  simp [kvLoop, h]

theorem kvLoop_nil (fuel : Nat) (acc : Buffer) : kvLoop fuel acc [] = some acc := by
  cases fuel <;> rfl

/-- A message whose parts are shorter than 2^64 bytes reads back. -/
theorem kvFromBytes_kvToBytes (b : Buffer) (h : (kvToBytes b).length < 2 ^ 64) :
    kvFromBytes (kvToBytes b) = some b := by
  obtain ⟨k, t, v⟩ := b
  have hk : (strBytes k).length < 2 ^ 64 := by
    by_cases hk : k = ""
    · subst hk; simp
    · simp [kvToBytes, hk, lenDelim] at h; omega
  have hv : v.length < 2 ^ 64 := by
    by_cases hv : v = []
    · subst hv; simp
    · simp [kvToBytes, hv, lenDelim] at h; omega
  -- reading the value field, whatever was read before
  have h3 : ∀ (fuel : Nat) (acc : Buffer), acc.value = [] → 0 < fuel →
      kvLoop fuel acc (if v = [] then [] else (26 : UInt8) :: lenDelim v) = some { acc with value := v } := by
    intro fuel acc ha hf
    split
    · rename_i hv0; subst hv0; rw [kvLoop_nil]; cases acc; simp_all
    · obtain ⟨f, rfl⟩ : ∃ f, fuel = f + 1 := ⟨fuel - 1, by omega⟩
      have := kvField_value acc v [] hv
      rw [List.append_nil] at this
      rw [kvLoop_step this, kvLoop_nil]
  have h2 : ∀ (fuel : Nat) (acc : Buffer), acc.value = [] → acc.type = 0 → 1 < fuel →
      kvLoop fuel acc ((if t = 0 then [] else (16 : UInt8) :: int32Varint t) ++
        (if v = [] then [] else (26 : UInt8) :: lenDelim v)) = some { acc with type := t, value := v } := by
    intro fuel acc ha ht hf
    split
    · rename_i ht0; subst ht0; rw [List.nil_append, h3 fuel acc ha (by omega)]; cases acc; simp_all
    · obtain ⟨f, rfl⟩ : ∃ f, fuel = f + 1 := ⟨fuel - 1, by omega⟩
      rw [List.cons_append, kvLoop_step (kvField_type acc t _), h3 f _ (by simpa using ha) (by omega)]
  have h1 : ∀ (fuel : Nat), 2 < fuel → kvLoop fuel ⟨"", 0, []⟩ (kvToBytes ⟨k, t, v⟩) = some ⟨k, t, v⟩ := by
    intro fuel hf
    unfold kvToBytes
    rw [List.append_assoc]
    split
    · rename_i hk0; simp only at hk0; subst hk0; rw [List.nil_append, h2 fuel _ rfl rfl (by omega)]
    · obtain ⟨f, rfl⟩ : ∃ f, fuel = f + 1 := ⟨fuel - 1, by omega⟩
      rw [List.cons_append, kvLoop_step (kvField_key _ k _ hk), h2 f _ rfl rfl (by omega)]
  by_cases hlen : 2 < (kvToBytes ⟨k, t, v⟩).length
  · exact h1 _ hlen
  · -- at most two bytes: only a type field can be present
    unfold kvFromBytes
    by_cases hk0 : k = ""
    · by_cases hv0 : v = []
      · subst hk0 hv0
        by_cases ht0 : t = 0
        · subst ht0; rfl
        · simp only [kvToBytes, ht0, if_false, if_true, List.nil_append, List.append_nil]
          have := kvField_type ⟨"", 0, []⟩ t []
          rw [List.append_nil] at this
          rw [List.length_cons, kvLoop_step this, kvLoop_nil]
      · exfalso; apply hlen
        have h1 : 0 < v.length := List.length_pos_iff.mpr hv0
        have h2 : 0 < (varint v.length).length := List.length_pos_iff.mpr (varint_ne_nil _)
        simp [kvToBytes, hv0, lenDelim]; omega
    · exfalso; apply hlen
      have h1 : 0 < (strBytes k).length := List.length_pos_iff.mpr (fun hh => hk0 (strBytes_eq_nil.mp hh))
      have h2 : 0 < (varint (strBytes k).length).length := List.length_pos_iff.mpr (varint_ne_nil _)
      simp [kvToBytes, hk0, lenDelim]; omega

end Mmkv
