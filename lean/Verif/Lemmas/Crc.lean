import Verif.Model.Codec
/-! Error detection of the CRC-8 used by the records. -/

namespace Mmkv

/-- Bytewise exclusive or. -/
def xorBytes (a e : Bytes) : Bytes := List.zipWith (· ^^^ ·) a e

theorem u8_forall (P : UInt8 → Prop) (h : ∀ i : Fin 256, P (UInt8.ofNat i.val)) : ∀ x, P x := by
  intro x
  have h1 : x.toNat < 256 := x.toNat_lt
  have := h ⟨x.toNat, h1⟩
  simpa using this

theorem u8_xor_left_comm (a b c : UInt8) : a ^^^ (b ^^^ c) = b ^^^ (a ^^^ c) := by
  rw [← UInt8.xor_assoc, UInt8.xor_comm a b, UInt8.xor_assoc]

theorem u8_xor_cancel (a b : UInt8) : a ^^^ (a ^^^ b) = b := by
  rw [← UInt8.xor_assoc]; simp

theorem crcBit_xor (a b : UInt8) : crcBit (a ^^^ b) = crcBit a ^^^ crcBit b := by
  have key : ∀ x : UInt8, crcBit x = (x <<< 1) ^^^ (if x &&& 0x80 ≠ 0 then 0x2f else 0) := by
    intro x; unfold crcBit; split <;> simp
  have hm : ∀ x : UInt8, (if x &&& 0x80 ≠ 0 then (0x2f : UInt8) else 0) = (if x.toBitVec.msb then 0x2f else 0) := by
    apply u8_forall; decide +kernel
  rw [key, key a, key b, hm, hm, hm]
  have h1 : (a ^^^ b) <<< 1 = (a <<< 1) ^^^ (b <<< 1) := by
    apply UInt8.toBitVec_inj.1
    simp [BitVec.shiftLeft_xor_distrib]
  have h2 : (a ^^^ b).toBitVec.msb = (a.toBitVec.msb ^^ b.toBitVec.msb) := by simp
  rw [h1, h2]
  cases a.toBitVec.msb <;> cases b.toBitVec.msb <;> simp [UInt8.xor_assoc, UInt8.xor_comm, u8_xor_left_comm]

theorem crcTable_xor (a b : UInt8) : crcTable (a ^^^ b) = crcTable a ^^^ crcTable b := by
  simp only [crcTable, crcBit_xor]

theorem crcTable_zero : crcTable 0 = 0 := by decide

theorem crcTable_eq_zero : ∀ x : UInt8, crcTable x = 0 → x = 0 := by
  apply u8_forall; decide +kernel

theorem u8_xor_eq_zero {a b : UInt8} : a ^^^ b = 0 ↔ a = b := by
  constructor
  · intro h
    have : a ^^^ b ^^^ b = b := by rw [h]; simp
    simpa [UInt8.xor_assoc] using this
  · rintro rfl; simp

/-- The register after a run from 0: the syndrome of an error pattern. -/
def syndrome (e : Bytes) : UInt8 := e.foldl crcStep 0

theorem foldl_crcStep_xor (a e : Bytes) (h : e.length = a.length) (c d : UInt8) :
    (xorBytes a e).foldl crcStep (c ^^^ d) = a.foldl crcStep c ^^^ e.foldl crcStep d := by
  induction a generalizing e c d with
  | nil => cases e with
    | nil => rfl
    | cons => simp at h
  | cons x a ih =>
    cases e with
    | nil => simp at h
    | cons y e =>
      have : crcStep (c ^^^ d) (x ^^^ y) = crcStep c x ^^^ crcStep d y := by
        unfold crcStep
        rw [← crcTable_xor]
        congr 1
        simp [UInt8.xor_comm, u8_xor_left_comm]
      have hs : xorBytes (x :: a) (y :: e) = (x ^^^ y) :: xorBytes a e := rfl
      rw [hs, List.foldl_cons, this, List.foldl_cons, List.foldl_cons]
      exact ih e (by simpa using h) _ _

theorem crc8_xor (a e : Bytes) (h : e.length = a.length) :
    crc8 (xorBytes a e) = crc8 a ^^^ syndrome e := by
  unfold crc8 syndrome
  have := foldl_crcStep_xor a e h 0xff 0
  simp only [UInt8.xor_zero] at this
  rw [this]
  rw [UInt8.xor_assoc, UInt8.xor_assoc, UInt8.xor_comm (e.foldl crcStep 0)]

/-- An error pattern over body and checksum byte goes undetected exactly when its syndrome is 0. -/
theorem undetected_iff (body eb : Bytes) (es : UInt8) (h : eb.length = body.length) :
    crc8 (xorBytes body eb) = crc8 body ^^^ es ↔ syndrome (eb ++ [es]) = 0 := by
  rw [crc8_xor body eb h]
  have : syndrome (eb ++ [es]) = crcTable (syndrome eb ^^^ es) := by
    simp [syndrome, crcStep]
  rw [this]
  constructor
  · intro h
    have h2 : syndrome eb = es := by
      have : crc8 body ^^^ (crc8 body ^^^ syndrome eb) = crc8 body ^^^ (crc8 body ^^^ es) := by rw [h]
      simpa [← UInt8.xor_assoc] using this
    rw [h2]; simp [crcTable_zero]
  · intro h
    rw [u8_xor_eq_zero.1 (crcTable_eq_zero _ h)]

theorem foldl_zeros (n : Nat) (c : UInt8) (h : c ≠ 0) : (List.replicate n (0 : UInt8)).foldl crcStep c ≠ 0 := by
  induction n generalizing c with
  | zero => simpa using h
  | succ n ih =>
    rw [List.replicate_succ, List.foldl_cons]
    apply ih
    unfold crcStep
    intro h0
    exact h (by simpa using crcTable_eq_zero _ h0)

theorem foldl_zeros_zero (n : Nat) : (List.replicate n (0 : UInt8)).foldl crcStep 0 = 0 := by
  induction n with
  | zero => rfl
  | succ n ih => rw [List.replicate_succ, List.foldl_cons]; exact ih

/-- Padding with zero bytes on either side does not hide an error. -/
theorem syndrome_pad (i j : Nat) (e : Bytes) (h : syndrome e ≠ 0) :
    syndrome (List.replicate i 0 ++ e ++ List.replicate j 0) ≠ 0 := by
  unfold syndrome at *
  rw [List.foldl_append, List.foldl_append, foldl_zeros_zero]
  exact foldl_zeros _ _ h

theorem syndrome_byte (x : UInt8) (h : x ≠ 0) : syndrome [x] ≠ 0 := by
  simp only [syndrome, List.foldl_cons, List.foldl_nil, crcStep, UInt8.zero_xor]
  exact fun h0 => h (crcTable_eq_zero _ h0)

/-- A burst: eight consecutive bits `p`, starting `s` bits before the end of the first of two bytes. -/
def burst (p : UInt8) (s : Nat) : Bytes :=
  [UInt8.ofNat (p.toNat * 2 ^ s / 256), UInt8.ofNat (p.toNat * 2 ^ s % 256)]

theorem syndrome_burst (p : UInt8) (s : Nat) (hs : s ≤ 8) (h : p ≠ 0) : syndrome (burst p s) ≠ 0 := by
  have : ∀ p : UInt8, ∀ s : Fin 9, p ≠ 0 → syndrome (burst p s.val) ≠ 0 := by
    apply u8_forall; decide +kernel
  exact this p ⟨s, by omega⟩ h

/-- Parity of the bits of a byte. -/
def parity8 (x : UInt8) : Bool :=
  x.toBitVec.getLsbD 0 ^^ x.toBitVec.getLsbD 1 ^^ x.toBitVec.getLsbD 2 ^^ x.toBitVec.getLsbD 3 ^^
  x.toBitVec.getLsbD 4 ^^ x.toBitVec.getLsbD 5 ^^ x.toBitVec.getLsbD 6 ^^ x.toBitVec.getLsbD 7

/-- Parity of the bits of a byte string. -/
def parity (e : Bytes) : Bool := e.foldl (fun acc x => acc ^^ parity8 x) false

instance : Std.Commutative Bool.xor := ⟨Bool.xor_comm⟩

theorem parity8_xor (a b : UInt8) : parity8 (a ^^^ b) = (parity8 a ^^ parity8 b) := by
  simp only [parity8, UInt8.toBitVec_xor, BitVec.getLsbD_xor]
  ac_rfl

theorem parity8_crcTable : ∀ x : UInt8, parity8 (crcTable x) = parity8 x := by
  apply u8_forall; decide +kernel

theorem parity8_syndrome (e : Bytes) : parity8 (syndrome e) = parity e := by
  unfold syndrome parity
  have : ∀ (c : UInt8), parity8 (e.foldl crcStep c) = e.foldl (fun acc x => acc ^^ parity8 x) (parity8 c) := by
    induction e with
    | nil => intro c; rfl
    | cons x e ih =>
      intro c
      rw [List.foldl_cons, List.foldl_cons, ih]
      congr 1
      unfold crcStep
      rw [parity8_crcTable, parity8_xor]
  simpa [parity8] using this 0

/-- Any odd number of flipped bits is detected. -/
theorem syndrome_odd (e : Bytes) (h : parity e = true) : syndrome e ≠ 0 := by
  intro h0
  have := parity8_syndrome e
  rw [h0, h] at this
  simp [parity8] at this

/-- A single flipped bit. -/
def bit8 (n : Nat) : UInt8 := UInt8.ofNat (2 ^ n)

/-- Two flipped bits in different bytes, `d` whole bytes between them, less than 127 bit positions apart. -/
theorem syndrome_two_bits (a b : Nat) (d : Nat) (ha : a < 8) (hb : b < 8) (hd : (d + 1) * 8 + a < 127 + b) :
    syndrome (bit8 a :: (List.replicate d 0 ++ [bit8 b])) ≠ 0 := by
  have : ∀ a : Fin 8, ∀ b : Fin 8, ∀ d : Fin 16, (d.val + 1) * 8 + a.val < 127 + b.val →
      syndrome (bit8 a.val :: (List.replicate d.val 0 ++ [bit8 b.val])) ≠ 0 := by decide +kernel
  exact this ⟨a, ha⟩ ⟨b, hb⟩ ⟨d, by omega⟩ hd

end Mmkv
