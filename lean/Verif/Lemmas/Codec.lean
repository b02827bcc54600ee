import Verif.Model.Codec
import Verif.Lemmas.Proto
/-! Laws of the two codecs. -/

namespace Mmkv

/-- What the rest of the development needs from a codec: `okB b` says that `b` is small enough to be framed,
`posOk pos` that a record may be encoded at position `pos`, `recLen b` is the length of its record. -/
structure LawfulCodec (c : Codec) (okB : Buffer → Prop) (posOk : Nat → Prop) (recLen : Buffer → Nat) : Prop where
  posOk_mono : ∀ p q, posOk p → q ≤ p → posOk q
  enc_dec : ∀ b pos, okB b → posOk pos → ∃ r, c.enc b pos = some r ∧ r.length = recLen b ∧
    ∀ rest, c.dec (r ++ rest) pos = .ok (some b) r.length
  recLen_pos : ∀ b, 0 < recLen b
  dec_local : ∀ data pos ob len, c.dec data pos = .ok ob len →
    0 < len ∧ len ≤ data.length ∧ ∀ rest, c.dec (data.take len ++ rest) pos = .ok ob len
  dec_no_err : ∀ data pos e, c.dec data pos ≠ .err e

/-- Sizes for which the CRC record is faithful: the 32-bit length field does not overflow. -/
def crcOk (b : Buffer) : Prop := (kvToBytes b).length + 5 < 2 ^ 32
/-- The CRC codec ignores the position. -/
def anyPos (_ : Nat) : Prop := True
/-- Length of a CRC record: 4 bytes length, the message, 1 byte checksum. -/
def crcLen (b : Buffer) : Nat := (kvToBytes b).length + 5

theorem take4_be (n : Nat) (rest : Bytes) : (beBytes 4 n ++ rest).take 4 = beBytes 4 n :=
  List.take_left' (beBytes_length 4 n)

theorem drop4_be (n : Nat) (rest : Bytes) : (beBytes 4 n ++ rest).drop 4 = rest :=
  List.drop_left' (beBytes_length 4 n)

/-- Decoding a frame `len32 ++ body ++ [sum] ++ rest`. -/
theorem crcDec_frame (body : Bytes) (sum : UInt8) (rest : Bytes) (pos : Nat) (h : body.length + 5 < 2 ^ 32) :
    crcDec (beBytes 4 (body.length + 1) ++ body ++ [sum] ++ rest) pos =
      .ok (if crc8 body = sum then kvFromBytes body else none) (body.length + 5) := by
  have hassoc : beBytes 4 (body.length + 1) ++ body ++ [sum] ++ rest =
      beBytes 4 (body.length + 1) ++ (body ++ sum :: rest) := by simp
  have hval : beVal (beBytes 4 (body.length + 1)) = body.length + 1 := beVal_beBytes _ _ (by omega)
  unfold crcDec
  rw [hassoc, take4_be, drop4_be, hval]
  rw [if_neg (by simp)]
  simp only []
  rw [if_neg (by omega), if_neg (by simp), if_neg (by omega)]
  have hb : (body ++ sum :: rest).take (body.length + 1 - 1) = body := by simp
  have hs : (beBytes 4 (body.length + 1) ++ (body ++ sum :: rest)).getD (4 + (body.length + 1) - 1) 0 = sum := by
    rw [List.getD_eq_getElem?_getD, List.getElem?_append_right (by simp)]
    rw [List.getElem?_append_right (by simp)]
    simp
  rw [hb, hs]
  congr 1
  omega

theorem crc_lawful : LawfulCodec crcCodec crcOk anyPos crcLen where
  posOk_mono := by intros; trivial
  enc_dec := by
    intro b pos h _
    refine ⟨_, rfl, by simp [crcLen]; omega, ?_⟩
    intro rest
    have := crcDec_frame (kvToBytes b) (crc8 (kvToBytes b)) rest pos h
    simp only [crcCodec]
    rw [this]
    simp only [if_true]
    rw [kvFromBytes_kvToBytes b (by unfold crcOk at h; omega)]
    simp; omega
  recLen_pos := by intro b; simp [crcLen]
  dec_local := by
    intro data pos ob len h
    simp only [crcCodec] at h ⊢
    unfold crcDec at h
    split at h
    · cases h
    · rename_i h4
      simp only [] at h
      split at h
      · cases h
      · rename_i h0
        split at h
        · cases h
        · rename_i hlen
          split at h
          · cases h
          rename_i hov
          injection h with h1 h2
          subst h2
          refine ⟨by omega, by omega, ?_⟩
          intro rest
          unfold crcDec
          have e1 : (data.take (4 + beVal (data.take 4)) ++ rest).take 4 = data.take 4 := by
            rw [List.take_append_of_le_length (by simp; omega), List.take_take, Nat.min_eq_left (by omega)]
          rw [e1, if_neg (by simp; omega)]
          simp only []
          rw [if_neg h0, if_neg (by simp; omega), if_neg hov]
          have e2 : ((data.take (4 + beVal (data.take 4)) ++ rest).drop 4).take (beVal (data.take 4) - 1) =
              (data.drop 4).take (beVal (data.take 4) - 1) := by
            rw [List.drop_append_of_le_length (by simp; omega),
              List.take_append_of_le_length (by simp; omega), List.drop_take, List.take_take,
              Nat.min_eq_left (by omega)]
          have e3 : (data.take (4 + beVal (data.take 4)) ++ rest).getD (4 + beVal (data.take 4) - 1) 0 =
              data.getD (4 + beVal (data.take 4) - 1) 0 := by
            rw [List.getD_eq_getElem?_getD, List.getD_eq_getElem?_getD,
              List.getElem?_append_left (by simp; omega), List.getElem?_take, if_pos (by omega)]
          rw [e2, e3, h1]
  dec_no_err := by
    intro data pos e h
    simp only [crcCodec] at h
    unfold crcDec at h
    simp only [] at h
    repeat' split at h
    all_goals cases h

/-- When the encrypting codec can encode: 32-bit length and the counter not exhausted. -/
def aeadOk (b : Buffer) : Prop := (kvToBytes b).length + 12 < 2 ^ 32
/-- The counter is not exhausted. -/
def aeadPos (pos : Nat) : Prop := pos < counterMax
/-- Length of an encrypted record: 4 bytes length, message, 8 bytes tag. -/
def aeadLen (b : Buffer) : Nat := (kvToBytes b).length + 12

theorem aead_lawful (S : Stream) : LawfulCodec (aeadCodec S) aeadOk aeadPos aeadLen where
  posOk_mono := by intro p q h h'; unfold aeadPos at *; omega
  enc_dec := by
    intro b pos h hp
    unfold aeadOk at h
    replace hp : pos ≠ counterMax := by unfold aeadPos at hp; omega
    have hl := S.cipher.encrypt_length S.key S.nonce pos (kvToBytes b)
    refine ⟨beBytes 4 (S.cipher.encrypt S.key S.nonce pos (kvToBytes b)).length ++
      S.cipher.encrypt S.key S.nonce pos (kvToBytes b), ?_, ?_, ?_⟩
    · simp [aeadCodec, aeadEnc, Stream.encrypt, hp]
    · simp [aeadLen, hl]; omega
    · intro rest
      simp only [aeadCodec]
      unfold aeadDec
      rw [List.append_assoc, take4_be, drop4_be, beVal_beBytes _ _ (by omega)]
      rw [if_neg (by simp)]
      simp only []
      rw [if_neg (by simp), if_neg (by omega)]
      rw [List.take_left' rfl]
      simp only [Stream.decrypt, hp, if_false, S.cipher.decrypt_encrypt]
      rw [kvFromBytes_kvToBytes b (by omega)]
      simp
  recLen_pos := by intro b; simp [aeadLen]
  dec_local := by
    intro data pos ob len h
    simp only [aeadCodec] at h ⊢
    unfold aeadDec at h
    split at h
    · cases h
    · rename_i h4
      simp only [] at h
      split at h
      · cases h
      · rename_i hlen
        split at h
        · cases h
        rename_i hov
        injection h with h1 h2
        subst h2
        refine ⟨by omega, by omega, ?_⟩
        intro rest
        unfold aeadDec
        have e1 : (data.take (4 + beVal (data.take 4)) ++ rest).take 4 = data.take 4 := by
          rw [List.take_append_of_le_length (by simp; omega), List.take_take, Nat.min_eq_left (by omega)]
        rw [e1, if_neg (by simp; omega)]
        simp only []
        rw [if_neg (by simp; omega), if_neg hov]
        have e2 : ((data.take (4 + beVal (data.take 4)) ++ rest).drop 4).take (beVal (data.take 4)) =
            (data.drop 4).take (beVal (data.take 4)) := by
          rw [List.drop_append_of_le_length (by simp; omega),
            List.take_append_of_le_length (by simp; omega), List.drop_take, List.take_take,
            Nat.min_eq_left (by omega)]
        rw [e2]
        simp only [h1]
  dec_no_err := by
    intro data pos e h
    simp only [aeadCodec] at h
    unfold aeadDec at h
    simp only [] at h
    repeat' split at h
    all_goals cases h

end Mmkv
