import Verif.Props.Durability
import Verif.Lemmas.Crc
/-!
# Properties of the records and of damaged files: C18, C19, C20, C21

All about the plain (unencrypted) store; the encrypted one is in `Props/Encrypt.lean`.
-/

namespace Mmkv
open Spec
open Inst

/-! ### C18 -/

/-- The bytes of a record: four bytes of length (message and checksum), the protobuf message, the checksum. -/
def record (b : Buffer) : Bytes := beBytes 4 ((kvToBytes b).length + 1) ++ (kvToBytes b ++ [crc8 (kvToBytes b)])

theorem record_length (b : Buffer) : (record b).length = recordSize b.key b.type b.value := by
  show _ = 4 + (kvToBytes b).length + 1
  simp [record]; omega

/-- **C18.** Every record below 4 GiB, read back at any position with any bytes following it, decodes to exactly the key,
type and value written and reports exactly its own length; and it is exactly four bytes of length, the message and its
checksum. -/
theorem C18_roundtrip (key : String) (token : BitVec 32) (value : Bytes) (pos : Nat)
    (h : recordSize key token value < 2 ^ 32) :
    ∃ r, crcEnc ⟨key, token, value⟩ pos = some r ∧ r = record ⟨key, token, value⟩ ∧ r.length = recordSize key token value ∧
      ∀ rest pos', crcDec (r ++ rest) pos' = .ok (some ⟨key, token, value⟩) r.length := by
  have hok : crcOk ⟨key, token, value⟩ := by simp only [recordSize, crcOk] at *; omega
  obtain ⟨r, hr, hlen, hdec⟩ := crc_lawful.enc_dec ⟨key, token, value⟩ pos hok trivial
  refine ⟨r, hr, ?_, ?_, ?_⟩
  · simp only [crcCodec, crcEnc, Option.some.injEq] at hr
    rw [← hr]; simp [record]
  · rw [hlen]; simp only [crcLen, recordSize]; omega
  · intro rest pos'; exact hdec rest

/-- **C18**, the limit is real: when the message and its checksum take exactly 4 GiB the length field wraps to 0 and
reading the record back panics. -/
theorem C18_limit (key : String) (token : BitVec 32) (value : Bytes) (pos : Nat)
    (h : recordSize key token value = 2 ^ 32 + 4) :
    ∃ r, crcEnc ⟨key, token, value⟩ pos = some r ∧ ∀ rest pos', crcDec (r ++ rest) pos' = .panic := by
  refine ⟨_, rfl, fun rest pos' => ?_⟩
  have hl : (kvToBytes ⟨key, token, value⟩).length + 1 = 2 ^ 32 := by simp only [recordSize] at h; omega
  have h0 : beVal (beBytes 4 ((kvToBytes ⟨key, token, value⟩).length + 1)) = 0 := by
    rw [beVal_beBytes_mod, hl]
  unfold crcDec
  rw [if_neg (by simp)]
  simp only [List.append_assoc]
  rw [take4_be, h0]
  rfl

/-- Non-vacuity: the record of the repository's own encoder test data is in range. -/
example : recordSize "key1" 0 [0, 0, 0, 1] < 2 ^ 32 := by decide

/-! ### C19 -/

/-- Damage that leaves the length field alone: the rest of the record (message and checksum) is xor-ed with `e`. -/
def damage (r e : Bytes) : Bytes := r.take 4 ++ xorBytes (r.drop 4) e

theorem xorBytes_append (a b e f : Bytes) (h : a.length = e.length) : xorBytes (a ++ b) (e ++ f) = xorBytes a e ++ xorBytes b f := by
  unfold xorBytes
  exact List.zipWith_append h

theorem xorBytes_length (a e : Bytes) (h : a.length = e.length) : (xorBytes a e).length = a.length := by
  simp [xorBytes, h]

theorem damage_length (r e : Bytes) (h : e.length + 4 = r.length) : (damage r e).length = r.length := by
  simp [damage, xorBytes]; omega

/-- The general fact: damaged records are rejected unless the error pattern is a multiple of the CRC polynomial. -/
theorem damage_rejected {b : Buffer} {e : Bytes} (hlen : e.length + 4 = (record b).length)
    (hsize : (record b).length < 2 ^ 32) (hs : syndrome e ≠ 0) (rest : Bytes) (pos : Nat) :
    crcDec (damage (record b) e ++ rest) pos = .ok none (record b).length := by
  have hrl : (record b).length = (kvToBytes b).length + 5 := by simp [record]; omega
  cases hsplit : e.reverse with
  | nil => have : e = [] := by simpa using hsplit
           subst this; simp at hlen; omega
  | cons es eb' =>
    have he : e = eb'.reverse ++ [es] := by
      have := congrArg List.reverse hsplit
      simpa using this
    generalize eb'.reverse = eb at he
    subst he
    have heb : (kvToBytes b).length = eb.length := by simp at hlen; omega
    have hd : damage (record b) (eb ++ [es]) =
        beBytes 4 ((kvToBytes b).length + 1) ++ xorBytes (kvToBytes b) eb ++ [crc8 (kvToBytes b) ^^^ es] := by
      unfold damage record
      rw [take4_be, drop4_be, xorBytes_append _ _ _ _ heb, List.append_assoc]
      rfl
    have hxl : (xorBytes (kvToBytes b) eb).length = (kvToBytes b).length := xorBytes_length _ _ heb
    have := crcDec_frame (xorBytes (kvToBytes b) eb) (crc8 (kvToBytes b) ^^^ es) rest pos (by omega)
    rw [hxl] at this
    rw [hd, this, if_neg, hrl]
    intro hc
    exact hs ((undetected_iff _ _ _ heb.symm).1 hc)

theorem xorBytes_zero_left (l : Bytes) (n : Nat) (h : l.length = n) : xorBytes l (List.replicate n 0) = l := by
  induction l generalizing n with
  | nil => simp [xorBytes]
  | cons a l ih =>
    subst h
    simp only [List.length_cons, List.replicate_succ, xorBytes, List.zipWith_cons_cons, UInt8.xor_zero, List.cons.injEq, true_and]
    exact ih _ rfl

/-- Setting one byte is damage by a one-byte error pattern. -/
theorem set_eq_damage (r : Bytes) (i : Nat) (x y : UInt8) (h4 : 4 ≤ i) (hy : r[i]? = some y) :
    r.set i x = damage r (List.replicate (i - 4) 0 ++ [x ^^^ y] ++ List.replicate (r.length - i - 1) 0) := by
  have hi : i < r.length := by
    rw [List.getElem?_eq_some_iff] at hy; exact hy.1
  have hy' : r[i] = y := by rw [List.getElem?_eq_some_iff] at hy; exact hy.2
  have e1 : r = r.take 4 ++ ((r.drop 4).take (i - 4) ++ ([y] ++ r.drop (i + 1))) := by
    have h1 : r.drop i = y :: r.drop (i + 1) := by rw [← hy']; exact List.drop_eq_getElem_cons hi
    have h2 : (r.drop 4).take (i - 4) ++ r.drop i = r.drop 4 := by
      have : r.drop i = (r.drop 4).drop (i - 4) := by rw [List.drop_drop]; congr 1; omega
      rw [this, List.take_append_drop]
    have : [y] ++ r.drop (i + 1) = r.drop i := by rw [h1]; rfl
    rw [this, h2, List.take_append_drop]
  have e2 : damage r (List.replicate (i - 4) 0 ++ [x ^^^ y] ++ List.replicate (r.length - i - 1) 0) =
      r.take 4 ++ ((r.drop 4).take (i - 4) ++ ([x] ++ r.drop (i + 1))) := by
    have hd : r.drop 4 = (r.drop 4).take (i - 4) ++ ([y] ++ r.drop (i + 1)) := by
      have := congrArg (List.drop 4) e1
      rw [List.drop_left' (by simp; omega)] at this
      exact this
    have hx : [y ^^^ (x ^^^ y)] = [x] := by rw [UInt8.xor_comm x y, u8_xor_cancel]
    unfold damage
    rw [hd, List.append_assoc, xorBytes_append _ _ _ _ (by simp; omega), xorBytes_append _ _ _ _ (by simp),
      xorBytes_zero_left _ _ (by simp; omega), xorBytes_zero_left _ _ (by simp; omega)]
    show _ ++ (_ ++ ([y ^^^ (x ^^^ y)] ++ _)) = _
    rw [hx, ← hd]
  rw [e2]
  conv => lhs; rw [e1]
  rw [List.set_append_right i x (by simp; omega), List.set_append_right _ x (by simp; omega)]
  simp only [List.length_take, List.length_drop]
  have : i - min 4 r.length - min (i - 4) (r.length - 4) = 0 := by omega
  rw [this]
  rfl

/-- **C19**, one byte: if any single byte of the message or of the checksum of a record is changed to any other value,
the record is rejected (decodes to nothing) wherever it is read. -/
theorem C19_one_byte (key : String) (token : BitVec 32) (value : Bytes) (h : recordSize key token value < 2 ^ 32)
    (i : Nat) (x y : UInt8) (h4 : 4 ≤ i) (hy : (record ⟨key, token, value⟩)[i]? = some y) (hx : x ≠ y) (rest : Bytes) (pos : Nat) :
    crcDec ((record ⟨key, token, value⟩).set i x ++ rest) pos = .ok none (recordSize key token value) := by
  have hl := record_length ⟨key, token, value⟩
  have hi : i < (record ⟨key, token, value⟩).length := by
    rw [List.getElem?_eq_some_iff] at hy; exact hy.1
  rw [set_eq_damage _ i x y h4 hy, damage_rejected (by simp; omega) (by rw [hl]; exact h), hl]
  apply syndrome_pad
  apply syndrome_byte
  intro h0
  exact hx (u8_xor_eq_zero.1 h0)

theorem beBytes_split : ∀ (i j v : Nat), v < 256 ^ j → beBytes (i + j) v = List.replicate i 0 ++ beBytes j v
  | 0, j, v, _ => by simp
  | i + 1, j, v, h => by
    have hle : 256 ^ j ≤ 256 ^ (i + j) := Nat.pow_le_pow_right (by omega) (by omega)
    have h0 : v / 256 ^ (i + j) = 0 := Nat.div_eq_of_lt (by omega)
    rw [show i + 1 + j = i + j + 1 by omega, beBytes, h0, beBytes_split i j v h]
    rfl

theorem beBytes_shift : ∀ (i j v : Nat), beBytes (i + j) (v * 256 ^ j) = beBytes i v ++ List.replicate j 0
  | 0, j, v => by
    induction j with
    | zero => simp [beBytes]
    | succ j ih =>
      have e1 : v * 256 ^ (j + 1) = (v * 256) * 256 ^ j := by rw [Nat.pow_succ]; ac_rfl
      rw [show 0 + (j + 1) = (0 + j) + 1 by omega, beBytes.eq_2 (v * 256 ^ (j + 1)) (0 + j), e1]
      have h1 : v * 256 * 256 ^ j / 256 ^ (0 + j) = v * 256 := by
        rw [Nat.zero_add]; exact Nat.mul_div_cancel _ (Nat.pow_pos (by omega))
      rw [h1]
      have h2 : UInt8.ofNat (v * 256) = 0 := by
        apply UInt8.toNat_inj.1; simp
      rw [h2]
      have ih' : ∀ w, beBytes (0 + j) (w * 256 ^ j) = List.replicate j 0 := by
        intro w
        have : ∀ (n w m : Nat), n ≤ m → beBytes n (w * 256 ^ m) = List.replicate n 0 := by
          intro n
          induction n with
          | zero => intros; rfl
          | succ n ihn =>
            intro w m hm
            rw [beBytes, ihn w m (by omega), List.replicate_succ]
            congr 1
            have hm' : 256 ^ m = 256 ^ (m - n - 1) * 256 * 256 ^ n := by
              rw [← Nat.pow_succ, ← Nat.pow_add]; congr 1; omega
            rw [hm', ← Nat.mul_assoc, Nat.mul_div_cancel _ (Nat.pow_pos (by omega)), ← Nat.mul_assoc]
            apply UInt8.toNat_inj.1; simp
        rw [Nat.zero_add]; exact this j w j (Nat.le_refl _)
      rw [ih' (v * 256), List.replicate_succ]
      simp [beBytes]
  | i + 1, j, v => by
    rw [show i + 1 + j = i + j + 1 by omega, beBytes, beBytes, beBytes_shift i j v]
    rw [Nat.pow_add, Nat.mul_div_mul_right _ _ (Nat.pow_pos (by omega))]
    rfl

theorem syndrome_burst_val (e : Bytes) (p k : Nat) (hp : 0 < p) (hp' : p < 256) (h : beVal e = p * 2 ^ k) : syndrome e ≠ 0 := by
  -- prepend a zero byte so that a window of two bytes always fits
  have h0 : syndrome ((0 : UInt8) :: e) = syndrome e := by
    simp [syndrome, crcStep, crcTable_zero]
  rw [← h0]
  have hlt := beVal_lt e
  have hk : k / 8 < e.length := by
    apply Decidable.byContradiction
    intro hge
    have h1 : 256 ^ e.length ≤ 2 ^ k := by
      have : (256 : Nat) = 2 ^ 8 := by decide
      rw [this, ← Nat.pow_mul]
      exact Nat.pow_le_pow_right (by omega) (by omega)
    have h2 : 1 * 2 ^ k ≤ p * 2 ^ k := Nat.mul_le_mul_right _ hp
    omega
  have hval : p * 2 ^ k = (p * 2 ^ (k % 8)) * 256 ^ (k / 8) := by
    have : (256 : Nat) = 2 ^ 8 := by decide
    rw [this, ← Nat.pow_mul, Nat.mul_assoc, ← Nat.pow_add]
    congr 2; omega
  have hw : p * 2 ^ (k % 8) < 256 ^ 2 := by
    have h1 : 2 ^ (k % 8) ≤ 2 ^ 7 := Nat.pow_le_pow_right (by omega) (by omega)
    have h2 : p * 2 ^ (k % 8) ≤ p * 2 ^ 7 := Nat.mul_le_mul_left _ h1
    omega
  have he : (0 : UInt8) :: e = List.replicate (e.length - 1 - k / 8) 0 ++ burst (UInt8.ofNat p) (k % 8) ++ List.replicate (k / 8) 0 := by
    have h1 : (0 : UInt8) :: e = beBytes (1 + e.length) (beVal e) := by
      rw [beBytes_split 1 _ _ hlt, beBytes_beVal]; rfl
    have h2 : 1 + e.length = (e.length - 1 - k / 8 + 2) + k / 8 := by omega
    rw [h1, h, hval, h2, beBytes_shift, beBytes_split _ 2 _ hw]
    congr 2
    have hpn : (UInt8.ofNat p).toNat = p := by simp; omega
    simp only [beBytes, burst, hpn, Nat.pow_one, Nat.pow_zero, Nat.div_one]
    congr 2
    apply UInt8.toNat_inj.1; simp
  rw [he]
  apply syndrome_pad
  apply syndrome_burst _ _ (by omega)
  intro h0
  have := congrArg UInt8.toNat h0
  simp at this; omega

/-- **C19**, bursts: any corruption of message and checksum confined to eight consecutive bits - the error pattern, read
as one big number, is `p * 2^k` with `0 < p < 256` - is rejected. -/
theorem C19_burst (key : String) (token : BitVec 32) (value : Bytes) (h : recordSize key token value < 2 ^ 32)
    (e : Bytes) (hlen : e.length + 4 = recordSize key token value) (p k : Nat) (hp : 0 < p) (hp' : p < 256)
    (he : beVal e = p * 2 ^ k) (rest : Bytes) (pos : Nat) :
    crcDec (damage (record ⟨key, token, value⟩) e ++ rest) pos = .ok none (recordSize key token value) := by
  have hl := record_length ⟨key, token, value⟩
  rw [damage_rejected (by rw [hl]; exact hlen) (by rw [hl]; exact h) (syndrome_burst_val e p k hp hp' he), hl]

/-- **C19**, odd errors: any corruption that flips an odd number of bits of message and checksum is rejected. -/
theorem C19_odd (key : String) (token : BitVec 32) (value : Bytes) (h : recordSize key token value < 2 ^ 32)
    (e : Bytes) (hlen : e.length + 4 = recordSize key token value) (he : parity e = true) (rest : Bytes) (pos : Nat) :
    crcDec (damage (record ⟨key, token, value⟩) e ++ rest) pos = .ok none (recordSize key token value) := by
  have hl := record_length ⟨key, token, value⟩
  rw [damage_rejected (by rw [hl]; exact hlen) (by rw [hl]; exact h) (syndrome_odd e he), hl]

/-- **C19**, two bits less than 127 positions apart. -/
theorem C19_two_bits (key : String) (token : BitVec 32) (value : Bytes) (h : recordSize key token value < 2 ^ 32)
    (n m a b d : Nat) (ha : a < 8) (hb : b < 8) (hd : (d + 1) * 8 + a < 127 + b)
    (hlen : n + (d + 2) + m + 4 = recordSize key token value) (rest : Bytes) (pos : Nat) :
    crcDec (damage (record ⟨key, token, value⟩)
      (List.replicate n 0 ++ bit8 a :: (List.replicate d 0 ++ [bit8 b]) ++ List.replicate m 0) ++ rest) pos =
      .ok none (recordSize key token value) := by
  have hl := record_length ⟨key, token, value⟩
  rw [damage_rejected (by rw [hl]; simp; omega) (by rw [hl]; exact h) (syndrome_pad _ _ _ (syndrome_two_bits a b d ha hb hd)), hl]

/-- The claim is tight in two ways: a nine-bit burst can go unnoticed (the CRC polynomial itself), and so can two flipped
bits 127 positions apart. -/
theorem C19_limits : syndrome [0x01, 0x2f] = 0 ∧ syndrome (bit8 7 :: (List.replicate 14 0 ++ [bit8 0])) = 0 := by
  decide +kernel

/-- Non-vacuity: a byte of a concrete record. -/
example : (record ⟨"a", 2, [1]⟩)[9]? = some 26 ∧ (17 : UInt8) ≠ 26 ∧ recordSize "a" 2 [1] < 2 ^ 32 ∧ beVal [0, 0, 3, 128, 0, 0, 0, 0, 0] = 7 * 2 ^ 47 := by
  decide +kernel

/-! ### C20 -/

/-- The record the store writes for a mutation. -/
def recordOf : Mutation → Bytes
  | .put k e => record ⟨k, e.token, e.bytes⟩
  | .delete k => record ⟨k, deletedToken, []⟩
  | .clear => []

/-- A mutation that is written as one record: a put (not at the token reserved for deletions) or a delete, below 4 GiB. -/
def Recorded : Mutation → Prop
  | .put k e => e.token ≠ deletedToken ∧ recordSize k e.token e.bytes < 2 ^ 32
  | .delete k => recordSize k deletedToken [] < 2 ^ 32
  | .clear => False

/-- A data file with the given records. -/
def fileOf (records : List Bytes) (slack : Bytes) : Bytes := beBytes 8 records.flatten.length ++ records.flatten ++ slack

/-- The buffer of a recorded mutation. -/
def bufOf : Mutation → Buffer
  | .put k e => ⟨k, e.token, e.bytes⟩
  | .delete k => ⟨k, deletedToken, []⟩
  | .clear => ⟨"", 0, []⟩

theorem Recorded.rec {m : Mutation} (h : Recorded m) : recordOf m = record (bufOf m) ∧ (bufOf m).mutation = m ∧ (record (bufOf m)).length < 2 ^ 32 := by
  cases m with
  | put k e =>
    refine ⟨rfl, ?_, by rw [record_length]; exact h.2⟩
    simp [Buffer.mutation, bufOf, Buffer.isDeleting, h.1, Buffer.entry]
  | delete k =>
    refine ⟨rfl, ?_, by rw [record_length]; exact h⟩
    simp [Buffer.mutation, bufOf, Buffer.isDeleting]
  | clear => exact absurd h id

theorem framed_record {m : Mutation} (h : Recorded m) (pos : Nat) : Framed crcCodec pos (recordOf m) [some (bufOf m)] := by
  obtain ⟨h1, h2, h3⟩ := h.rec
  have hr : (record (bufOf m)).length = (kvToBytes (bufOf m)).length + 5 := by simp [record]; omega
  rw [h1]
  refine Framed.single (by intro h0; rw [h0] at hr; simp at hr) fun rest => ?_
  obtain ⟨r, _, hr2, _, hdec⟩ := C18_roundtrip (bufOf m).key (bufOf m).type (bufOf m).value pos (by rw [← record_length]; exact h3)
  rw [hr2] at hdec
  exact hdec rest pos

theorem framed_records : ∀ (ms : List Mutation) (pos : Nat), (∀ m ∈ ms, Recorded m) →
    Framed crcCodec pos (ms.map recordOf).flatten (ms.map fun m => some (bufOf m))
  | [], pos, _ => .nil pos
  | m :: ms, pos, h => by
    have h1 := framed_record (h m List.mem_cons_self) pos
    have h2 := framed_records ms (pos + 1) (fun m' hm' => h m' (List.mem_cons_of_mem _ hm'))
    exact h1.append (by simpa using h2)

theorem mutations_recorded (ms : List Mutation) (h : ∀ m ∈ ms, Recorded m) :
    mutations (ms.map fun m => some (bufOf m)) = ms := by
  unfold mutations
  rw [List.filterMap_map]
  induction ms with
  | nil => rfl
  | cons m ms ih =>
    have h1 := (h m List.mem_cons_self).rec.2.1
    rw [List.filterMap_cons]
    simp only [Function.comp, Option.map_some, h1]
    congr 1
    exact ih fun m' hm' => h m' (List.mem_cons_of_mem _ hm')

theorem open_framed {page : Nat} {file content : Bytes} {items : List (Option Buffer)} (hh : Holds file content)
    (hf : Framed crcCodec 0 content items) :
    ∃ s, openAt plain () page file = some s ∧ s.Shows (Store.empty.run (mutations items)) := by
  have hlen := hh.len
  have hne : file.length ≠ 0 := by omega
  have hv : Valid crcCodec { file := file, mmLen := file.length, page := page, position := items.length, needTrim := false } content items :=
    ⟨rfl, rfl, hh, hf, rfl⟩
  have hread : WState.readItems { file := file, mmLen := file.length, page := page, position := 0, needTrim := false } crcCodec = some items :=
    by have := readItems_eq hv; exact this
  have hopen : openAt plain () page file = some { idx := (), kv := (intoMap items).1, lp := Looper.new { ws :=
      { file := file, mmLen := file.length, page := page, position := items.length, needTrim := false } } } := by
    unfold openAt openStore plain
    simp only [configNew, hne, if_false, hread]
    rfl
  exact ⟨_, hopen, shows_of_view hopen (view_intoMap items)⟩

/-- What a file with such records reads as (the reference point for C20). -/
theorem C20_undamaged (page : Nat) (ms : List Mutation) (slack : Bytes) (hrec : ∀ m ∈ ms, Recorded m)
    (hbig : (fileOf (ms.map recordOf) slack).length < 2 ^ 64) :
    ∃ s, openAt plain () page (fileOf (ms.map recordOf) slack) = some s ∧ s.Shows (Store.empty.run ms) := by
  have hh : Holds (fileOf (ms.map recordOf) slack) (ms.map recordOf).flatten := by
    refine ⟨?_, slack, rfl⟩
    unfold fileOf at hbig
    simp only [List.length_append, beBytes_length] at hbig
    omega
  obtain ⟨s, hs, hsh⟩ := open_framed (page := page) hh (framed_records ms 0 hrec)
  rw [mutations_recorded ms hrec] at hsh
  exact ⟨s, hs, hsh⟩

theorem damaged_file (page : Nat) (pre post : List Mutation) (m : Mutation) (r' slack : Bytes)
    (hrec : ∀ m' ∈ pre ++ [m] ++ post, Recorded m') (hl' : r'.length = (recordOf m).length)
    (hdec : ∀ rest pos, crcDec (r' ++ rest) pos = .ok none r'.length)
    (hbig : (fileOf (pre.map recordOf ++ [r'] ++ post.map recordOf) slack).length < 2 ^ 64) :
    ∃ s, openAt plain () page (fileOf (pre.map recordOf ++ [r'] ++ post.map recordOf) slack) = some s ∧
      s.Shows (Store.empty.run (pre ++ post)) := by
  have hpre : ∀ m' ∈ pre, Recorded m' := fun m' h => hrec m' (by simp [h])
  have hpost : ∀ m' ∈ post, Recorded m' := fun m' h => hrec m' (by simp [h])
  have hm := hrec m (by simp)
  have hne : r' ≠ [] := by
    intro h0
    have := (framed_record hm 0)
    obtain ⟨h1, _, _⟩ := hm.rec
    rw [h1, h0] at hl'
    simp [record] at hl'
  have hf : Framed crcCodec 0 (pre.map recordOf ++ [r'] ++ post.map recordOf).flatten
      (pre.map (fun m => some (bufOf m)) ++ [none] ++ post.map (fun m => some (bufOf m))) := by
    simp only [List.flatten_append, List.flatten_cons, List.flatten_nil, List.append_nil]
    exact ((framed_records pre 0 hpre).append (.single hne fun rest => hdec rest (0 + (pre.map fun m => some (bufOf m)).length))).append (framed_records post _ hpost)
  have hh : Holds (fileOf (pre.map recordOf ++ [r'] ++ post.map recordOf) slack) (pre.map recordOf ++ [r'] ++ post.map recordOf).flatten := by
    refine ⟨?_, slack, rfl⟩
    unfold fileOf at hbig
    simp only [List.length_append, beBytes_length] at hbig
    omega
  obtain ⟨s, hs, hsh⟩ := open_framed (page := page) hh hf
  refine ⟨s, hs, ?_⟩
  have hmu : mutations (pre.map (fun m => some (bufOf m)) ++ [none] ++ post.map (fun m => some (bufOf m))) = pre ++ post := by
    have h1 := mutations_recorded pre hpre
    have h2 := mutations_recorded post hpost
    unfold mutations at *
    simp only [List.filterMap_append, h1, h2]
    simp
  rw [hmu] at hsh
  exact hsh

/-- **C20.** If one byte of one record's message or checksum has been changed, the directory still opens, every other
record has its usual effect, in order, and the damaged one has none. -/
theorem C20_contained (page : Nat) (pre post : List Mutation) (m : Mutation) (slack : Bytes)
    (hrec : ∀ m' ∈ pre ++ [m] ++ post, Recorded m') (i : Nat) (x y : UInt8) (h4 : 4 ≤ i) (hy : (recordOf m)[i]? = some y)
    (hx : x ≠ y)
    (hbig : (fileOf (pre.map recordOf ++ [(recordOf m).set i x] ++ post.map recordOf) slack).length < 2 ^ 64) :
    ∃ s, openAt plain () page (fileOf (pre.map recordOf ++ [(recordOf m).set i x] ++ post.map recordOf) slack) = some s ∧
      s.Shows (Store.empty.run (pre ++ post)) := by
  obtain ⟨h1, h2, h3⟩ := (hrec m (by simp)).rec
  refine damaged_file page pre post m _ slack hrec (by simp) ?_ hbig
  intro rest pos
  rw [List.length_set]
  rw [h1] at hy ⊢
  have := C19_one_byte (bufOf m).key (bufOf m).type (bufOf m).value (by rw [← record_length]; exact h3) i x y h4 hy hx rest pos
  rw [← record_length] at this
  exact this

/-- **C20** for burst damage. -/
theorem C20_contained_burst (page : Nat) (pre post : List Mutation) (m : Mutation) (slack : Bytes)
    (hrec : ∀ m' ∈ pre ++ [m] ++ post, Recorded m') (e : Bytes) (hlen : e.length + 4 = (recordOf m).length)
    (p k : Nat) (hp : 0 < p) (hp' : p < 256) (he : beVal e = p * 2 ^ k)
    (hbig : (fileOf (pre.map recordOf ++ [damage (recordOf m) e] ++ post.map recordOf) slack).length < 2 ^ 64) :
    ∃ s, openAt plain () page (fileOf (pre.map recordOf ++ [damage (recordOf m) e] ++ post.map recordOf) slack) = some s ∧
      s.Shows (Store.empty.run (pre ++ post)) := by
  obtain ⟨h1, h2, h3⟩ := (hrec m (by simp)).rec
  refine damaged_file page pre post m _ slack hrec (damage_length _ _ hlen) ?_ hbig
  intro rest pos
  rw [damage_length _ _ hlen]
  rw [h1] at hlen ⊢
  have := C19_burst (bufOf m).key (bufOf m).type (bufOf m).value (by rw [← record_length]; exact h3) e
    (by rw [← record_length]; exact hlen) p k hp hp' he rest pos
  rw [← record_length] at this
  exact this

/-- Non-vacuity: three records, the middle one damaged in its type byte. -/
example : (∀ m' ∈ [Mutation.put "a" ⟨2, [1]⟩] ++ [.put "a" ⟨2, [0]⟩] ++ [.put "b" ⟨0, [0, 0, 0, 9]⟩], Recorded m') ∧
    (recordOf (.put "a" ⟨2, [0]⟩))[8]? = some 2 ∧ (3 : UInt8) ≠ 2 := by
  refine ⟨?_, by decide +kernel, by decide⟩
  intro m' hm'
  simp only [List.cons_append, List.nil_append, List.mem_cons, List.not_mem_nil, or_false] at hm'
  rcases hm' with rfl | rfl | rfl <;> refine ⟨by decide, by decide +kernel⟩

/-! ### C21 -/

/-- A file that is a length header, whole records (each starting with a correct length field) filling exactly that length,
and slack. -/
def Tiled (file : Bytes) : Prop :=
  ∃ (chunks : List Bytes) (slack : Bytes), file = fileOf chunks slack ∧ chunks.flatten.length + 8 < 2 ^ 64 ∧
    ∀ chunk ∈ chunks, 5 ≤ chunk.length ∧ chunk.length < 2 ^ 32 ∧ chunk.take 4 = beBytes 4 (chunk.length - 4)

theorem crcDec_ok_iff (chunk : Bytes) : (∃ ob, ∀ rest pos, crcDec (chunk ++ rest) pos = .ok ob chunk.length) ↔
    5 ≤ chunk.length ∧ chunk.length < 2 ^ 32 ∧ chunk.take 4 = beBytes 4 (chunk.length - 4) := by
  constructor
  · rintro ⟨ob, h⟩
    have h := h [] 0
    rw [List.append_nil] at h
    unfold crcDec at h
    by_cases h1 : chunk.length < 4
    · rw [if_pos h1] at h; cases h
    rw [if_neg h1] at h
    simp only [] at h
    by_cases h2 : beVal (chunk.take 4) = 0
    · rw [if_pos h2] at h; cases h
    rw [if_neg h2] at h
    by_cases h3 : chunk.length < 4 + beVal (chunk.take 4)
    · rw [if_pos h3] at h; cases h
    rw [if_neg h3] at h
    by_cases h4 : 2 ^ 32 ≤ 4 + beVal (chunk.take 4)
    · rw [if_pos h4] at h; cases h
    rw [if_neg h4] at h
    injection h with _ h5
    refine ⟨by omega, by omega, ?_⟩
    have := beBytes_beVal (chunk.take 4)
    rw [List.length_take, Nat.min_eq_left (by omega)] at this
    rw [← this]
    congr 1
    omega
  · rintro ⟨h5, h32, hp⟩
    have hchunk : ∃ body sum, chunk = beBytes 4 (body.length + 1) ++ body ++ [sum] := by
      have h1 : (chunk.drop 4).length = chunk.length - 4 := by simp
      cases hrev : (chunk.drop 4).reverse with
      | nil =>
        have : (chunk.drop 4).reverse.length = 0 := by rw [hrev]; rfl
        rw [List.length_reverse] at this; omega
      | cons sum body' =>
        have he : chunk.drop 4 = body'.reverse ++ [sum] := by
          have := congrArg List.reverse hrev
          simpa using this
        have hl : chunk.length - 4 = body'.reverse.length + 1 := by rw [← h1, he]; simp
        refine ⟨body'.reverse, sum, ?_⟩
        rw [← hl, ← hp, List.append_assoc, ← he, List.take_append_drop]
    obtain ⟨body, sum, rfl⟩ := hchunk
    refine ⟨if crc8 body = sum then kvFromBytes body else none, fun rest pos => ?_⟩
    have hl : (beBytes 4 (body.length + 1) ++ body ++ [sum]).length = body.length + 5 := by simp; omega
    rw [hl]
    exact crcDec_frame body sum rest pos (by omega)

theorem framed_of_tiles : ∀ (chunks : List Bytes) (pos : Nat),
    (∀ chunk ∈ chunks, 5 ≤ chunk.length ∧ chunk.length < 2 ^ 32 ∧ chunk.take 4 = beBytes 4 (chunk.length - 4)) →
    ∃ items, Framed crcCodec pos chunks.flatten items
  | [], pos, _ => ⟨[], .nil pos⟩
  | chunk :: chunks, pos, h => by
    obtain ⟨items, hi⟩ := framed_of_tiles chunks (pos + 1) (fun c hc => h c (List.mem_cons_of_mem _ hc))
    have hc := h chunk List.mem_cons_self
    obtain ⟨ob, hd⟩ := (crcDec_ok_iff chunk).2 hc
    refine ⟨ob :: items, .cons pos chunk _ ob items ?_ (fun rest => hd rest pos) hi⟩
    intro h0; rw [h0] at hc; simp at hc

theorem opens_iff {page : Nat} {file : Bytes} (hne : file ≠ []) :
    (openAt plain () page file).isSome ↔ Tiled file := by
  constructor
  · intro h
    cases ho : openAt plain () page file with
    | none => rw [ho] at h; cases h
    | some s =>
      unfold openAt at ho
      split at ho
      · cases ho
      · rename_i o hos
        unfold openStore at hos
        have hlen : file.length ≠ 0 := by simpa using hne
        simp only [configNew, hlen, if_false] at hos
        split at hos
        · cases hos
        · rename_i items hi
          obtain ⟨_, content, hh, hf⟩ := readItems_inv crc_lawful rfl hi
          obtain ⟨chunks, hc, hd⟩ := framed_chunks hf
          subst hc
          obtain ⟨hb, slack, hfile⟩ := hh
          refine ⟨chunks, slack, hfile, hb, fun chunk hch => ?_⟩
          obtain ⟨n, hn⟩ := List.getElem?_of_mem hch
          obtain ⟨ob, _, h2⟩ := hd n chunk hn
          refine (crcDec_ok_iff chunk).1 ⟨ob, fun rest pos => ?_⟩
          have := h2 rest
          exact this
  · rintro ⟨chunks, slack, rfl, hb, hc⟩
    obtain ⟨items, hf⟩ := framed_of_tiles chunks 0 hc
    obtain ⟨s, hs, _⟩ := open_framed (page := page) (⟨hb, slack, rfl⟩ : Holds (fileOf chunks slack) chunks.flatten) hf
    rw [hs]; rfl

/-- **C21 is false.** Opening panics, for every page size, on a file whose length header points past its end (here 24
bytes, header 100), on a file of fewer than eight bytes, and on a record length that leaves the content. -/
theorem C21_refuted (page : Nat) :
    openAt plain () page (beBytes 8 100 ++ zeros 16) = none ∧
    openAt plain () page [1, 2, 3] = none ∧
    openAt plain () page (beBytes 8 6 ++ [0, 0, 0, 9, 1, 2] ++ zeros 50) = none := by
  have h : ∀ file : Bytes, file.length ≠ 0 → fileRecords crcCodec file = none → openAt plain () page file = none := by
    intro file hne hr
    have hr' : WState.readItems { file := file, mmLen := file.length, page := page, position := 0, needTrim := false } crcCodec = none := hr
    unfold openAt openStore plain
    simp only [configNew, hne, if_false, hr']
  refine ⟨h _ (by simp) (by decide +kernel), h _ (by simp) (by decide +kernel), h _ (by simp) (by decide +kernel)⟩

/-- **C21**, what is true: opening succeeds exactly on a missing or empty file and on files made of a length header,
whole records with correct length fields filling exactly that length, and slack - whatever the messages, checksums and
slack bytes are.  Missing from C21: every other file makes opening panic (`C21_refuted`). -/
theorem C21_opens_exactly_partial {page : Nat} (h8 : 8 ≤ page) (file : Bytes) :
    (openAt plain () page file).isSome ↔ file = [] ∨ Tiled file := by
  by_cases hne : file = []
  · subst hne
    simp only [true_or, iff_true]
    obtain ⟨s, hs, _⟩ := C22_fresh_empty plain () page h8
    rw [hs]; rfl
  · simp only [hne, false_or]
    exact opens_iff hne

/-- Non-vacuity: a file with a garbage message of six bytes opens. -/
example : Tiled (beBytes 8 11 ++ [0, 0, 0, 7, 250, 251, 252, 253, 254, 255, 1] ++ zeros 45) :=
  ⟨[[0, 0, 0, 7, 250, 251, 252, 253, 254, 255, 1]], zeros 45, rfl, by decide, by decide⟩

end Mmkv
