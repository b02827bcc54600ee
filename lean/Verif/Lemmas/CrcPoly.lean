import Mathlib.Algebra.CharP.Two
import Mathlib.Tactic.LinearCombination
import Mathlib.Tactic.ComputeDegree
import Verif.SpecFormat
import Verif.Lemmas.Crc
/-! The byte-wise checksum is the remainder of a polynomial division. -/

namespace Mmkv
open Polynomial Spec.Format

theorem zpoly_two : (2 : (ZMod 2)[X]) = 0 := CharTwo.two_eq_zero

/-- A bit as an element of the field. -/
def zbit (b : Bool) : ZMod 2 := if b then 1 else 0

theorem zbit_xor (a b : Bool) : zbit (a ^^ b) = zbit a + zbit b := by revert a b; decide

theorem bytePoly_eq (b : UInt8) : bytePoly b = ∑ i ∈ Finset.range 8, C (zbit (b.toNat.testBit i)) * X ^ i := rfl

theorem bytePoly_xor (a b : UInt8) : bytePoly (a ^^^ b) = bytePoly a + bytePoly b := by
  rw [bytePoly_eq, bytePoly_eq, bytePoly_eq, ← Finset.sum_add_distrib]
  refine Finset.sum_congr rfl fun i _ => ?_
  rw [UInt8.toNat_xor, Nat.testBit_xor, zbit_xor, C_add, add_mul]

/-- Bits of the table step, for all bytes. -/
theorem crcBit_bits : ∀ c : UInt8,
    (crcBit c).toNat.testBit 0 = c.toNat.testBit 7 ∧
    (crcBit c).toNat.testBit 1 = (c.toNat.testBit 0 ^^ c.toNat.testBit 7) ∧
    (crcBit c).toNat.testBit 2 = (c.toNat.testBit 1 ^^ c.toNat.testBit 7) ∧
    (crcBit c).toNat.testBit 3 = (c.toNat.testBit 2 ^^ c.toNat.testBit 7) ∧
    (crcBit c).toNat.testBit 4 = c.toNat.testBit 3 ∧
    (crcBit c).toNat.testBit 5 = (c.toNat.testBit 4 ^^ c.toNat.testBit 7) ∧
    (crcBit c).toNat.testBit 6 = c.toNat.testBit 5 ∧
    (crcBit c).toNat.testBit 7 = c.toNat.testBit 6 := by
  apply u8_forall; decide +kernel

theorem bytePoly_crcBit (c : UInt8) :
    bytePoly (crcBit c) = X * bytePoly c + C (zbit (c.toNat.testBit 7)) * generator := by
  obtain ⟨h0, h1, h2, h3, h4, h5, h6, h7⟩ := crcBit_bits c
  rw [bytePoly_eq, bytePoly_eq, generator]
  simp only [Finset.sum_range_succ, Finset.sum_range_zero, h0, h1, h2, h3, h4, h5, h6, h7, zbit_xor, C_add]
  linear_combination (- C (zbit (c.toNat.testBit 7)) * X ^ 8) * zpoly_two

theorem dvd_crcBit (c : UInt8) : generator ∣ bytePoly (crcBit c) - X * bytePoly c :=
  ⟨C (zbit (c.toNat.testBit 7)), by rw [bytePoly_crcBit]; ring⟩

theorem dvd_crcBit_pow {c : UInt8} {p : (ZMod 2)[X]} {k : Nat} (h : generator ∣ bytePoly c - X ^ k * p) :
    generator ∣ bytePoly (crcBit c) - X ^ (k + 1) * p := by
  have h1 := dvd_add (dvd_crcBit c) (Dvd.dvd.mul_left h X)
  convert h1 using 1
  ring

theorem dvd_crcTable (c : UInt8) : generator ∣ bytePoly (crcTable c) - X ^ 8 * bytePoly c := by
  have h0 : generator ∣ bytePoly c - X ^ 0 * bytePoly c := by simp
  unfold crcTable
  exact dvd_crcBit_pow (dvd_crcBit_pow (dvd_crcBit_pow (dvd_crcBit_pow (dvd_crcBit_pow (dvd_crcBit_pow (dvd_crcBit_pow (dvd_crcBit_pow h0)))))))

theorem dvd_crc_fold (bs : Bytes) (c : UInt8) :
    generator ∣ (bytePoly c * X ^ (8 * bs.length) + poly bs * X ^ 8) - bytePoly (bs.foldl crcStep c) := by
  induction bs generalizing c with
  | nil => simp [poly]
  | cons b bs ih =>
    have h1 := ih (crcStep c b)
    have h2 := dvd_crcTable (c ^^^ b)
    rw [bytePoly_xor] at h2
    have h3 := dvd_sub h1 (Dvd.dvd.mul_right h2 (X ^ (8 * bs.length)))
    simp only [List.foldl_cons, List.length_cons, poly]
    convert h3 using 1
    unfold crcStep
    ring

theorem generator_monic : generator.Monic := by
  unfold generator
  monicity!

theorem generator_natDegree : generator.natDegree = 8 := by
  unfold generator
  compute_degree!

theorem bytePoly_degree (b : UInt8) : (bytePoly b).degree < generator.degree := by
  have hd : generator.degree = ((8 : Nat) : WithBot ℕ) := by
    rw [degree_eq_natDegree generator_monic.ne_zero, generator_natDegree]
  rw [hd]
  unfold bytePoly
  refine (degree_sum_le _ _).trans_lt ?_
  rw [Finset.sup_lt_iff (by exact WithBot.bot_lt_coe _)]
  intro i hi
  refine (degree_C_mul_X_pow_le _ _).trans_lt ?_
  have := Finset.mem_range.1 hi
  exact_mod_cast this

theorem u8_xor_ff (a : UInt8) : a ^^^ 0xff ^^^ 0xff = a := by rw [UInt8.xor_assoc]; simp

/-- The checksum of the code is the checksum of the format. -/
theorem isCrc_crc8 (bs : Bytes) : IsCrc bs (crc8 bs) := by
  unfold IsCrc crc8
  rw [u8_xor_ff, modByMonic_eq_of_dvd_sub generator_monic (dvd_crc_fold bs 0xff),
    (modByMonic_eq_self_iff generator_monic).2 (bytePoly_degree _)]

theorem bytePoly_inj {a b : UInt8} (h : bytePoly a = bytePoly b) : a = b := by
  have hc : ∀ (x : UInt8) (i : Nat), i < 8 → (bytePoly x).coeff i = zbit (x.toNat.testBit i) := by
    intro x i hi
    rw [bytePoly_eq, finsetSum_coeff]
    simp only [coeff_C_mul, coeff_X_pow, mul_ite, mul_one, mul_zero]
    rw [Finset.sum_ite_eq]
    simp [hi]
  have hb : ∀ i, i < 8 → a.toNat.testBit i = b.toNat.testBit i := by
    intro i hi
    have : zbit (a.toNat.testBit i) = zbit (b.toNat.testBit i) := by rw [← hc a i hi, ← hc b i hi, h]
    revert this
    cases a.toNat.testBit i <;> cases b.toNat.testBit i <;> decide
  apply UInt8.toNat_inj.1
  apply Nat.eq_of_testBit_eq
  intro i
  by_cases hi : i < 8
  · exact hb i hi
  · have ha := a.toNat_lt
    have hb' := b.toNat_lt
    have h28 : 2 ^ 8 ≤ 2 ^ i := Nat.pow_le_pow_right (by decide) (by omega)
    rw [Nat.testBit_lt_two_pow (by omega), Nat.testBit_lt_two_pow (by omega)]

/-- It is the only one. -/
theorem isCrc_unique {bs : Bytes} {a b : UInt8} (ha : IsCrc bs a) (hb : IsCrc bs b) : a = b := by
  unfold IsCrc at ha hb
  have := bytePoly_inj (ha.trans hb.symm)
  have h2 := congrArg (· ^^^ (0xff : UInt8)) this
  simpa [u8_xor_ff] using h2

theorem isCrc_iff {bs : Bytes} {sum : UInt8} : IsCrc bs sum ↔ crc8 bs = sum :=
  ⟨fun h => isCrc_unique (isCrc_crc8 bs) h, fun h => h ▸ isCrc_crc8 bs⟩

end Mmkv
