import Verif.Props.DiskFull
import Verif.Props.CrashEnc
/-!
# A full disk and an encrypted store: C91
-/

namespace Mmkv
open Spec Inst

/-- Appending a record of any codec in a file whose growth finds no space. -/
theorem grow_full {c : Codec} {os : Nat} (hos : 8 ≤ os) {s : WState} {items : List (Option Buffer)} {content : Bytes}
    (hv : Valid c s content items) (hq : s.quota = none) {b : Buffer} {rec : Bytes} (henc : c.enc b items.length = some rec) (hrl : 5 ≤ rec.length)
    (order : Order) (dup : Bool) (hnt : (s.needTrim || dup) = false) (hfull : s.file.length < 8 + content.length + rec.length)
    (hfit : 8 + content.length + rec.length ≤ s.file.length + s.page)
    {n : Nat} (hn : s.file.length = n * os) {d : Blocks} (hheld : ∀ p, p ∈ d.held ↔ p < n) (hfree : d.free = 0) :
    (∃ f, OnDisk os d s.file (s.effects c order b dup) none f) ∧
    ∀ r f, OnDisk os d s.file (s.effects c order b dup) r f →
      r = none ∧ (8 + content.length = s.file.length → f = beBytes 8 (rec.length + content.length) ++ content ++ zeros s.page) := by
  rw [effects_expand order b dup hv hq hnt henc (by omega) (by omega)]
  obtain ⟨_, tail, hfile⟩ := hv.holds
  have hflen : s.file.length = 8 + content.length + tail.length := by rw [hfile]; simp; omega
  have hgrow : Eff.apply s.file (.setLen (s.file.length + s.page)) = s.file ++ zeros s.page := by
    simp only [Eff.apply]
    rw [List.take_of_length_le (by omega), Nat.add_sub_cancel_left]
  have hn0 : 0 < n := by
    rcases Nat.eq_zero_or_pos n with h0 | h0
    · subst h0; omega
    · exact h0
  have hhd : ∀ q ∈ blocksOf os 0 (beBytes 8 (rec.length + content.length)).length, q ∈ d.held := by
    intro q hq
    have h2 := (mem_blocksOf.1 hq).2.2
    rw [beBytes_length, Nat.div_eq_of_lt (by omega)] at h2
    exact (hheld q).2 (by omega)
  have hlast : (content.length + 8 + rec.length - 1) / os ∈ blocksOf os (content.length + 8) rec.length :=
    mem_blocksOf.2 ⟨by omega, Nat.div_le_div_right (by omega), Nat.le_refl _⟩
  have hlast' : (content.length + 8 + rec.length - 1) / os ∉ d.held := by
    intro hin
    have h1 := (hheld _).1 hin
    have h2 : n ≤ (content.length + 8 + rec.length - 1) / os := (Nat.le_div_iff_mul_le (by omega)).2 (by omega)
    omega
  have htouch : d.touch ((content.length + 8 + rec.length - 1) / os) = none := by
    unfold Blocks.touch
    rw [if_neg (by simpa using hlast'), if_pos hfree]
  have hH := touchAll_held hhd
  constructor
  · refine ⟨_, .setLen (.store hH (.killed [] _ (((splice (Eff.apply s.file (.setLen (s.file.length + s.page))) 0 (beBytes 8 (rec.length + content.length))).drop (content.length + 8)).take rec.length) ?_ rfl hlast htouch ?_ ?_))⟩
    · intro q hq; cases hq
    · rw [List.length_take, List.length_drop, splice_length _ _ _ (by rw [hgrow]; simp; omega), hgrow]
      simp [zeros]; omega
    · intro i x hx
      left
      rw [List.getElem?_take] at hx
      split at hx
      · rwa [List.getElem?_drop] at hx
      · cases hx
  · intro r f ho
    cases ho with
    | setLen ho =>
    cases ho with
    | killed ps p bs' hps hd hp hfull' _ _ =>
      exact absurd ((touchAll_some hd).2.1 p (hhd p hp)) (touch_none hfull').1
    | @store _ d' _ _ _ _ _ _ ht rest =>
      have hd' : d' = d := (touchAll_some ht).2.2.2.2.2 hfree
      subst hd'
      cases rest with
      | store ht' _ =>
        have hd2 := (touchAll_some ht').2.2.2.2.2 hfree
        have := (touchAll_some ht').1 _ hlast
        rw [hd2] at this
        exact absurd this hlast'
      | @killed _ d1 _ _ _ _ ps p bs' hps hd hp hfull' hlen hmix =>
        refine ⟨rfl, fun hex => ?_⟩
        have hd1 : d1 = d' := (touchAll_some hd).2.2.2.2.2 hfree
        subst hd1
        have htail : tail = [] := List.length_eq_zero_iff.1 (by omega)
        have hspl : splice (Eff.apply s.file (.setLen (s.file.length + s.page))) 0 (beBytes 8 (rec.length + content.length)) =
            beBytes 8 (rec.length + content.length) ++ content ++ zeros s.page := by
          rw [hgrow, hfile, htail]
          have := splice_mid [] (beBytes 8 content.length) (content ++ zeros s.page) (beBytes 8 (rec.length + content.length)) (by simp)
          simpa using this
        rw [hspl] at hmix ⊢
        rw [splice_same (by rw [hlen]; simp [zeros]; omega) (fun i x hx => ?_)]
        rcases hmix i x hx with hg | ⟨_, hg⟩
        · exact hg
        · exfalso
          have h1 := (hheld _).1 hg
          have h2 : n ≤ (content.length + 8 + i) / os := (Nat.le_div_iff_mul_le (by omega)).2 (by omega)
          omega

/-- An encrypted data file whose header announces a record that is still zeros, and not a multiple of four bytes long, cannot be opened. -/
theorem openEnc_zeros {C : Cipher} {k nonce content tail : Bytes} {items : List (Option Buffer)} {n : Nat}
    (hf : Framed (aeadCodec ⟨C, k, nonce⟩) 0 content items) (hn64 : n + content.length + 8 < 2 ^ 64) (hle : n ≤ tail.length)
    (ht : tail.take n = zeros n) (hodd : n % 4 ≠ 0) {key : String} (hk : decodeKey key = some k) (hn : nonce.length = 11) (page : Nat) (rand : Bytes) :
    openEnc C page key rand ⟨beBytes 8 (n + content.length) ++ content ++ tail, some nonce⟩ = none := by
  rw [openEnc_eq hk]
  simp only [initNonce, show nonceLen = 11 from rfl, hn, if_true]
  have hread : WState.readItems { file := beBytes 8 (n + content.length) ++ content ++ tail, mmLen := (beBytes 8 (n + content.length) ++ content ++ tail).length, page := page, position := 0, needTrim := false } (aeadCodec ⟨C, k, nonce⟩) = none := by
    unfold WState.readItems WState.writeOffset WState.lenOffset
    have htake : (beBytes 8 (n + content.length) ++ content ++ tail).take 8 = beBytes 8 (n + content.length) := by
      rw [List.append_assoc]; exact List.take_left' (by simp)
    rw [if_neg (by simp), if_neg (by simp)]
    simp only [htake]
    rw [beVal_beBytes _ _ (by omega), if_pos (by omega)]
    simp only []
    rw [if_neg (by omega), if_neg (by simp; omega)]
    have hbody : ((beBytes 8 (n + content.length) ++ content ++ tail).take (n + content.length + 8)).drop 8 =
        content ++ zeros n := by
      rw [List.append_assoc, List.take_append, List.drop_append]
      simp only [beBytes_length]
      rw [List.take_of_length_le (l := beBytes 8 _) (by simp)]
      rw [List.drop_of_length_le (l := beBytes 8 _) (by simp), List.nil_append, beBytes_length]
      rw [show n + content.length + 8 - 8 = n + content.length by omega, Nat.sub_self, List.drop_zero,
        List.take_append, List.take_of_length_le (by omega), Nat.add_sub_cancel, ht]
    rw [hbody]
    obtain ⟨fuel', hf1, hf2⟩ := hf.iter_append (zeros n) _ (Nat.le_of_eq (List.length_append (as := content)).symm)
    rw [hf2, iterLoop_zeros _ _ _ _ (by omega) (by simpa [zeros] using hf1)]
    rfl
  unfold openAt openStore encrypted
  have hne : (beBytes 8 (n + content.length) ++ content ++ tail).length ≠ 0 := by simp
  simp only [configNew, hne, if_false, hread]

/-- **C91** for an encrypted store, what is true of the data: when the process is killed for lack of space inside an append, reopening with the
same key shows the map before or after it, unless the bytes in the place of the new record have a wrong length field or are accepted by the cipher
though they are not the record. -/
theorem C91_encrypted_saved_partial {os : Nat} (hos : 8 ≤ os) {C : Cipher} {key : String} {k nonce : Bytes} {s : WState} {items : List (Option Buffer)}
    (h : EncResting C k nonce s items) (hk : decodeKey key = some k) (hn : nonce.length = 11)
    {m : Mutation} (hm : EncRecorded m) (hpos : items.length < 2 ^ 32 - 1)
    (hsz : header s.file + (kvToBytes (bufOf m)).length + 12 + 8 < 2 ^ 64) (order : Order) (dup : Bool)
    (hroom : EncAppends s dup m) {S : Store} (hS : EncFileShows C key nonce s.file S) {d : Blocks} {f : Bytes}
    (hkill : OnDisk os d s.file (s.effects (aeadCodec ⟨C, k, nonce⟩) order (bufOf m) dup) none f) :
    (f.drop 8).take (header s.file) = (s.file.drop 8).take (header s.file) ∧
    (EncFileShows C key nonce f S ∨ EncFileShows C key nonce f (S.apply m) ∨
    (header f = header s.file + (kvToBytes (bufOf m)).length + 12 ∧
      ∃ t, t = (f.drop (8 + header s.file)).take ((kvToBytes (bufOf m)).length + 12) ∧ t ≠ encRecordOf C k nonce items.length m ∧
        (t.take 4 ≠ beBytes 4 ((kvToBytes (bufOf m)).length + 8) ∨ (C.decrypt k nonce items.length (t.drop 4)).isSome))) := by
  refine ⟨C11_encrypted_old_records_untouched h hpos order dup hroom (onDisk_crash hkill), ?_⟩
  rcases C11_encrypted_partial h hk hn hm hpos hsz order dup hroom hS (onDisk_crash hkill) with h1 | h1 | ⟨h1, h2⟩ | h1
  · exact .inl h1
  · exact .inr (.inl h1)
  · exfalso
    obtain ⟨content, hv, hc⟩ := h.valid
    have henc := enc_encRecordOf C k nonce m hpos
    have hl := encRecordOf_length C k nonce items.length m
    have hr := hroom
    unfold EncAppends at hr
    rw [hc] at hsz hr h2
    have hhead : ∀ n, n < 2 ^ 64 → f.take 8 = beBytes 8 n → header f = n := by
      intro n hn hf
      unfold header
      rw [hf, beVal_beBytes _ _ (by omega)]
    by_cases hfit : content.length + 8 + (encRecordOf C k nonce items.length m).length ≤ s.file.length
    · rw [effects_fit order (bufOf m) dup hv henc hfit] at hkill
      rcases onDisk_header hos (by simp) (by omega) hfit hkill with rfl | hh
      · exact h1 rfl
      · exact h2 ((hhead _ (by omega) hh).trans (by omega))
    · obtain ⟨hnt, hle⟩ : (s.needTrim || dup) = false ∧ 8 + content.length + (kvToBytes (bufOf m)).length + 12 ≤ s.file.length + s.page := by
        rcases hr with hr | hr
        · omega
        · exact hr
      rw [effects_expand order (bufOf m) dup hv h.rest.disk hnt henc (by omega) (by omega)] at hkill
      cases hkill with
      | setLen rest =>
        have hlen : (Eff.apply s.file (.setLen (s.file.length + s.page))).length = s.file.length + s.page := by
          simp [Eff.apply, zeros]
        rcases onDisk_header hos (by simp) (by omega) (by omega) rest with rfl | hh
        · apply h1
          unfold header
          have h8 := hv.holds.len
          simp only [Eff.apply]
          rw [List.take_append_of_le_length (by simp; omega), List.take_take, Nat.min_eq_left (by omega)]
        · exact h2 ((hhead _ (by omega) hh).trans (by omega))
  · exact .inr (.inr h1)

/-- **C91 is false** for encrypted stores too, in every state: the next record does not fit, no compaction is due, and the disk has no space beyond the
file's own blocks.  The process is killed, whatever the order in which bytes are copied (and it can happen); if the file was exactly full and the record is
not a multiple of four bytes long, the directory cannot be opened any more, with any page size, in every case. -/
theorem C91_encrypted_refuted {os : Nat} (hos : 8 ≤ os) {C : Cipher} {k nonce : Bytes} {s : WState} {items : List (Option Buffer)}
    (h : EncResting C k nonce s items) {m : Mutation} (hpos : items.length < 2 ^ 32 - 1)
    (hsz : header s.file + (kvToBytes (bufOf m)).length + 12 + 8 < 2 ^ 64) (order : Order) (dup : Bool) (hnt : (s.needTrim || dup) = false)
    (hfull : s.file.length < 8 + header s.file + (kvToBytes (bufOf m)).length + 12)
    (hfit : 8 + header s.file + (kvToBytes (bufOf m)).length + 12 ≤ s.file.length + s.page)
    {n : Nat} (hn : s.file.length = n * os) {d : Blocks} (hheld : ∀ p, p ∈ d.held ↔ p < n) (hfree : d.free = 0) :
    (∃ f, OnDisk os d s.file (s.effects (aeadCodec ⟨C, k, nonce⟩) order (bufOf m) dup) none f) ∧
    ∀ r f, OnDisk os d s.file (s.effects (aeadCodec ⟨C, k, nonce⟩) order (bufOf m) dup) r f →
      r = none ∧ (8 + header s.file = s.file.length → (kvToBytes (bufOf m)).length % 4 ≠ 0 →
        ∀ key page rand, decodeKey key = some k → nonce.length = 11 → openEnc C page key rand ⟨f, some nonce⟩ = none) := by
  obtain ⟨content, hv, hc⟩ := h.valid
  have hl := encRecordOf_length C k nonce items.length m
  rw [hc] at hsz hfull hfit ⊢
  obtain ⟨h1, h2⟩ := grow_full hos hv h.rest.disk (enc_encRecordOf C k nonce m hpos) (by omega) order dup hnt (by omega) (by omega) hn hheld hfree
  refine ⟨h1, fun r f hf => ?_⟩
  obtain ⟨h3, h4⟩ := h2 r f hf
  refine ⟨h3, fun hex hodd key page rand hk hnl => ?_⟩
  rw [h4 hex]
  exact openEnc_zeros hv.framed (by omega) (by simp [zeros]; omega)
    (by unfold zeros; rw [List.take_replicate, Nat.min_eq_left (by omega)]) (by omega) hk hnl page rand

/-- An encrypted file of one block of 64 bytes that is exactly full. -/
def encFullFile : Bytes :=
  fileOf [encRecordOf toy testKeyBytes nonce1 0 (.put "a" ⟨2, [1]⟩), encRecordOf toy testKeyBytes nonce1 1 (.put "b" ⟨6, List.replicate 17 7⟩)] []

/-- The hypotheses of `C91_encrypted_saved_partial` and `C91_encrypted_refuted` at this file. -/
example : ∃ s items, EncResting toy testKeyBytes nonce1 s items ∧ s.file = encFullFile ∧ decodeKey testKey = some testKeyBytes ∧ nonce1.length = 11 ∧
    EncRecorded (.put "cd" ⟨2, [1]⟩) ∧ items.length < 2 ^ 32 - 1 ∧ EncAppends s false (.put "cd" ⟨2, [1]⟩) ∧ (s.needTrim || false) = false ∧
    s.file.length < 8 + header s.file + (kvToBytes (bufOf (.put "cd" ⟨2, [1]⟩))).length + 12 ∧
    8 + header s.file + (kvToBytes (bufOf (.put "cd" ⟨2, [1]⟩))).length + 12 ≤ s.file.length + s.page ∧ s.file.length = 1 * 64 ∧
    8 + header s.file = s.file.length ∧ (kvToBytes (bufOf (.put "cd" ⟨2, [1]⟩))).length % 4 ≠ 0 ∧
    ∃ S, EncFileShows toy testKey nonce1 s.file S := by
  have h : EncResting toy testKeyBytes nonce1 { file := encFullFile, mmLen := 64, page := 64, position := 2, needTrim := false }
      [some ⟨"a", 2, [1]⟩, some ⟨"b", 6, List.replicate 17 7⟩] :=
    ⟨⟨by decide +kernel, rfl, rfl, [some ⟨"a", 2, [1]⟩, some ⟨"b", 6, List.replicate 17 7⟩], by decide +kernel, rfl⟩, by decide +kernel⟩
  refine ⟨_, _, h, rfl, decode_testKey, by decide, ⟨by decide, by decide +kernel⟩, by decide, .inr ⟨rfl, by decide +kernel⟩, rfl, by decide +kernel,
    by decide +kernel, by decide +kernel, by decide +kernel, by decide +kernel, _, h.shows decode_testKey (by decide)⟩
end Mmkv
