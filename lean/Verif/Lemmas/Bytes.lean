import Verif.Model.Values
/-! Big-endian integers, strings and typed values: helper lemmas. -/

namespace Mmkv

@[simp] theorem beBytes_length (n v : Nat) : (beBytes n v).length = n := by
  induction n with
  | zero => rfl
  | succ n ih => simp [beBytes, ih]

theorem beVal_foldl (bs : Bytes) (a : Nat) :
    bs.foldl (fun acc b => acc * 256 + b.toNat) a = a * 256 ^ bs.length + beVal bs := by
  induction bs generalizing a with
  | nil => simp [beVal]
  | cons b bs ih =>
    simp only [List.foldl_cons, List.length_cons, beVal]
    rw [ih, ih (0 * 256 + b.toNat)]
    simp [Nat.pow_succ]
    grind

@[simp] theorem beVal_nil : beVal [] = 0 := rfl

theorem beVal_cons (b : UInt8) (bs : Bytes) : beVal (b :: bs) = b.toNat * 256 ^ bs.length + beVal bs := by
  conv => lhs; unfold beVal
  rw [List.foldl_cons, beVal_foldl]; simp

theorem beVal_lt (bs : Bytes) : beVal bs < 256 ^ bs.length := by
  induction bs with
  | nil => simp
  | cons b bs ih =>
    rw [beVal_cons, List.length_cons, Nat.pow_succ]
    have := UInt8.toNat_lt b
    have h2 : (b.toNat + 1) * 256 ^ bs.length ≤ 256 * 256 ^ bs.length := Nat.mul_le_mul_right _ (by omega)
    rw [Nat.add_mul] at h2
    omega

theorem beVal_beBytes_mod (n v : Nat) : beVal (beBytes n v) = v % 256 ^ n := by
  induction n with
  | zero => simp [beBytes, Nat.mod_one]
  | succ n ih =>
    rw [beBytes, beVal_cons, ih, beBytes_length, UInt8.toNat_ofNat']
    rw [Nat.pow_succ 256 n, Nat.mod_mul, Nat.mul_comm (256 ^ n), show (2:Nat)^8 = 256 from rfl]
    omega

theorem beVal_beBytes (n v : Nat) (h : v < 256 ^ n) : beVal (beBytes n v) = v := by
  rw [beVal_beBytes_mod, Nat.mod_eq_of_lt h]

theorem beBytes_beVal (bs : Bytes) : beBytes bs.length (beVal bs) = bs := by
  induction bs with
  | nil => rfl
  | cons b bs ih =>
    have hlt := beVal_lt bs
    have hpos : 0 < 256 ^ bs.length := Nat.pos_of_ne_zero (by simp)
    simp only [List.length_cons, beBytes]
    have h1 : beVal (b :: bs) / 256 ^ bs.length = b.toNat := by
      rw [beVal_cons, Nat.mul_comm, Nat.mul_add_div hpos, Nat.div_eq_of_lt hlt]; simp
    rw [h1]
    congr 1
    · simp
    · have : ∀ n v w, n ≤ bs.length → v % 256 ^ bs.length = w % 256 ^ bs.length → beBytes n v = beBytes n w := by
        intro n v w hn hvw
        induction n with
        | zero => rfl
        | succ n ihn =>
          simp only [beBytes]
          rw [ihn (by omega)]
          congr 1
          apply UInt8.toNat_inj.mp
          rw [UInt8.toNat_ofNat', UInt8.toNat_ofNat']
          have hd : 256 ^ (n + 1) ∣ 256 ^ bs.length := Nat.pow_dvd_pow _ hn
          have h3 : v % 256 ^ (n+1) = w % 256 ^ (n+1) := by
            rw [← Nat.mod_mod_of_dvd v hd, hvw, Nat.mod_mod_of_dvd w hd]
          have key : ∀ x, x / 256 ^ n % 2 ^ 8 = (x % 256 ^ (n+1)) / 256 ^ n := by
            intro x; rw [Nat.pow_succ 256 n, Nat.mod_mul_right_div_self]
          rw [key, key, h3]
      rw [this bs.length (beVal (b :: bs)) (beVal bs) (Nat.le_refl _)]
      · exact ih
      · rw [beVal_cons]; simp

/-! ### strings -/

@[simp] theorem strOfBytes_strBytes (s : String) : strOfBytes (strBytes s) = some s := by
  unfold strOfBytes strBytes String.fromUTF8?
  have h : (⟨s.toByteArray.data.toList.toArray⟩ : ByteArray) = s.toByteArray := by simp
  rw [h, dif_pos s.isValidUTF8]
  rfl

theorem strBytes_of_strOfBytes {bs : Bytes} {s : String} (h : strOfBytes bs = some s) : strBytes s = bs := by
  unfold strOfBytes String.fromUTF8? at h
  split at h
  · cases h; simp [strBytes, String.fromUTF8]
  · cases h

theorem strBytes_inj {s t : String} (h : strBytes s = strBytes t) : s = t := by
  have := strOfBytes_strBytes s
  rw [h, strOfBytes_strBytes] at this
  exact (Option.some.inj this).symm

@[simp] theorem strBytes_empty : strBytes "" = [] := by decide

theorem strBytes_eq_nil {s : String} : strBytes s = [] ↔ s = "" := by
  constructor
  · intro h; exact strBytes_inj (by rw [h, strBytes_empty])
  · rintro rfl; simp

/-! ### typed values -/

@[simp] theorem num32ToBytes_length (x : BitVec 32) : (num32ToBytes x).length = 4 := by simp [num32ToBytes]
@[simp] theorem num64ToBytes_length (x : BitVec 64) : (num64ToBytes x).length = 8 := by simp [num64ToBytes]

theorem ofNat_beVal_num32 (x : BitVec 32) : BitVec.ofNat 32 (beVal (num32ToBytes x)) = x := by
  unfold num32ToBytes
  rw [beVal_beBytes _ _ (by have := x.isLt; omega)]; simp

theorem ofNat_beVal_num64 (x : BitVec 64) : BitVec.ofNat 64 (beVal (num64ToBytes x)) = x := by
  unfold num64ToBytes
  rw [beVal_beBytes _ _ (by have := x.isLt; omega)]; simp

theorem arrToBytes_length {α} (f : α → Bytes) (n : Nat) (hf : ∀ x, (f x).length = n) (xs : List α) :
    (arrToBytes f xs).length = n * xs.length := by
  induction xs with
  | nil => simp [arrToBytes]
  | cons x xs ih => simp [arrToBytes, ih, hf, Nat.mul_add]; omega

theorem arrLoop_arrToBytes {n w : Nat} (f : BitVec w → Bytes) (hf : ∀ x, (f x).length = n)
    (hr : ∀ x, BitVec.ofNat w (beVal (f x)) = x) (xs : List (BitVec w)) :
    arrLoop n w xs.length (arrToBytes f xs) = xs := by
  induction xs with
  | nil => rfl
  | cons x xs ih =>
    simp only [List.length_cons, arrLoop, arrToBytes]
    rw [List.take_left' (hf x), List.drop_left' (hf x), hr, ih]

theorem arrFromBytes_arrToBytes {n w : Nat} (hn : 0 < n) (f : BitVec w → Bytes) (hf : ∀ x, (f x).length = n)
    (hr : ∀ x, BitVec.ofNat w (beVal (f x)) = x) (xs : List (BitVec w)) :
    arrFromBytes n w (arrToBytes f xs) = .ok xs := by
  unfold arrFromBytes
  rw [arrToBytes_length f n hf]
  simp [Nat.mul_div_cancel_left _ hn, arrLoop_arrToBytes f hf hr]

theorem num32_rt (x : BitVec 32) : numFromBytes 4 32 (num32ToBytes x) = .ok x := by
  simp [numFromBytes, List.take_of_length_le, ofNat_beVal_num32]

theorem num64_rt (x : BitVec 64) : numFromBytes 8 64 (num64ToBytes x) = .ok x := by
  simp [numFromBytes, List.take_of_length_le, ofNat_beVal_num64]

theorem str_rt (s : String) : strFromBytes (strBytes s) = .ok s := by simp [strFromBytes]

theorem fromBytes_toBytes (t : Ty) (v : t.Val) : fromBytes t (toBytes t v) = .ok v := by
  cases t <;> simp only [fromBytes, toBytes]
  · exact num32_rt v
  · exact str_rt v
  · cases v <;> rfl
  · exact num64_rt v
  · exact num32_rt v
  · exact num64_rt v
  · exact arrFromBytes_arrToBytes (by omega) _ num32ToBytes_length ofNat_beVal_num32 _
  · exact arrFromBytes_arrToBytes (by omega) _ num64ToBytes_length ofNat_beVal_num64 _
  · exact arrFromBytes_arrToBytes (by omega) _ num32ToBytes_length ofNat_beVal_num32 _
  · exact arrFromBytes_arrToBytes (by omega) _ num64ToBytes_length ofNat_beVal_num64 _

theorem token_injective {t u : Ty} (h : t.token = u.token) : t = u := by
  cases t <;> cases u <;> first | rfl | (exact absurd h (by decide))

theorem token_ne_deleted (t : Ty) : t.token ≠ deletedToken := by cases t <;> decide

end Mmkv
