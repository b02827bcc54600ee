import Verif.Props.Crash
import Verif.Props.Encrypt
/-!
# Death inside a background write of an encrypted store: C11, C12
-/

namespace Mmkv
open Spec Inst

/-- Opening a directory with this data file, this nonce in its nonce file and this key (with any page size, and whatever
the random source would yield) succeeds and shows the plain map `S`. -/
def EncFileShows (C : Cipher) (key : String) (nonce file : Bytes) (S : Store) : Prop :=
  ∀ page rand, ∃ i, openEnc C page key rand ⟨file, some nonce⟩ = some i ∧ i.Shows S

/-- The encrypted record of a mutation at a position: four bytes of length, then the ciphertext. -/
def encRecordOf (C : Cipher) (k nonce : Bytes) (pos : Nat) (m : Mutation) : Bytes :=
  let ct := C.encrypt k nonce pos (kvToBytes (bufOf m))
  beBytes 4 ct.length ++ ct

/-- A mutation that is written as one encrypted record below 4 GiB. -/
def EncRecorded : Mutation → Prop
  | .put k e => e.token ≠ deletedToken ∧ encRecordSize k e.token e.bytes < 2 ^ 32
  | .delete k => encRecordSize k deletedToken [] < 2 ^ 32
  | .clear => False

/-- The background thread of an encrypted store between two jobs, and the records its file reads as. -/
structure EncResting (C : Cipher) (k nonce : Bytes) (s : WState) (items : List (Option Buffer)) : Prop where
  rest : EncAtRest ⟨C, k, nonce⟩ s
  reads : fileRecords (aeadCodec ⟨C, k, nonce⟩) s.file = some items

theorem EncResting.valid {C : Cipher} {k nonce : Bytes} {s : WState} {items : List (Option Buffer)}
    (h : EncResting C k nonce s items) :
    ∃ content, Valid (aeadCodec ⟨C, k, nonce⟩) s content items ∧ header s.file = content.length := by
  obtain ⟨content, items', hv⟩ := h.rest.valid
  have h1 : fileRecords (aeadCodec ⟨C, k, nonce⟩) s.file = some items' := by
    have hv' : Valid (aeadCodec ⟨C, k, nonce⟩)
        { file := s.file, mmLen := s.file.length, page := 0, position := items'.length, needTrim := false } content items' :=
      ⟨rfl, rfl, hv.holds, hv.framed, rfl⟩
    have := readItems_eq hv'
    exact this
  have := h.reads
  rw [h1] at this
  injection this with this
  subst this
  exact ⟨content, hv, hv.holds.header⟩

theorem EncRecorded.buf {m : Mutation} (h : EncRecorded m) : (bufOf m).mutation = m ∧ aeadOk (bufOf m) := by
  cases m with
  | put k e =>
    refine ⟨by simp [Buffer.mutation, bufOf, Buffer.isDeleting, h.1, Buffer.entry], ?_⟩
    have := h.2
    unfold encRecordSize at this
    unfold aeadOk bufOf
    simp only
    omega
  | delete k =>
    refine ⟨by simp [Buffer.mutation, bufOf, Buffer.isDeleting], ?_⟩
    have : encRecordSize k deletedToken [] < 2 ^ 32 := h
    unfold encRecordSize at this
    unfold aeadOk bufOf
    simp only
    omega
  | clear => exact absurd h id

theorem enc_encRecordOf (C : Cipher) (k nonce : Bytes) (m : Mutation) {pos : Nat} (hp : pos < counterMax) :
    (aeadCodec ⟨C, k, nonce⟩).enc (bufOf m) pos = some (encRecordOf C k nonce pos m) := by
  show aeadEnc _ _ _ = _
  unfold aeadEnc Stream.encrypt
  rw [if_neg (by show ¬ pos = counterMax; omega)]
  rfl

theorem encRecordOf_length (C : Cipher) (k nonce : Bytes) (pos : Nat) (m : Mutation) :
    (encRecordOf C k nonce pos m).length = (kvToBytes (bufOf m)).length + 12 := by
  unfold encRecordOf
  simp only [List.length_append, beBytes_length, C.encrypt_length]
  omega

/-- Opening a file whose content is framed. -/
theorem openEnc_framed {C : Cipher} {key : String} {k nonce file content : Bytes} {items : List (Option Buffer)}
    (hk : decodeKey key = some k) (hn : nonce.length = nonceLen) (hh : Holds file content)
    (hf : Framed (aeadCodec ⟨C, k, nonce⟩) 0 content items) :
    EncFileShows C key nonce file (Store.empty.run (mutations items)) := by
  intro page rand
  rw [openEnc_eq hk]
  simp only [initNonce, hn, if_true]
  have hlen := hh.len
  have hne : file.length ≠ 0 := by omega
  have hv : Valid (aeadCodec ⟨C, k, nonce⟩) { file := file, mmLen := file.length, page := page, position := items.length, needTrim := false } content items :=
    ⟨rfl, rfl, hh, hf, rfl⟩
  have hread : WState.readItems { file := file, mmLen := file.length, page := page, position := 0, needTrim := false } (aeadCodec ⟨C, k, nonce⟩) = some items :=
    by have := readItems_eq hv; exact this
  have hopen : openAt (encrypted C) (k, nonce) page file = some { idx := (k, nonce), kv := (intoMap items).1, lp := Looper.new { ws :=
      { file := file, mmLen := file.length, page := page, position := items.length, needTrim := false } } } := by
    unfold openAt openStore encrypted
    simp only [configNew, hne, if_false, hread]
    rfl
  exact ⟨_, hopen, shows_of_view hopen (view_intoMap items)⟩

theorem encFileShows_unique {C : Cipher} {key : String} {nonce file : Bytes} {S S' : Store}
    (h : EncFileShows C key nonce file S) (h' : EncFileShows C key nonce file S') : S = S' := by
  obtain ⟨i, hi, hs⟩ := h 8 []
  obtain ⟨i', hi', hs'⟩ := h' 8 []
  rw [hi] at hi'
  injection hi' with hi'
  subst hi'
  unfold openEnc at hi
  split at hi
  · cases hi
  · rw [← (shows_open hi).1 hs, ← (shows_open hi).1 hs']

/-- Opening needs the key to be 16 bytes of hexadecimal; a store of this key and nonce at rest shows what its records
add up to. -/
theorem EncResting.shows {C : Cipher} {key : String} {k nonce : Bytes} {s : WState} {items : List (Option Buffer)}
    (h : EncResting C k nonce s items) (hk : decodeKey key = some k) (hn : nonce.length = nonceLen) :
    EncFileShows C key nonce s.file (Store.empty.run (mutations items)) := by
  obtain ⟨content, hv, _⟩ := h.valid
  exact openEnc_framed hk hn hv.holds hv.framed

/-- Room for the encrypted record of `m` without a compaction: it fits, or no compaction is due and one more page is
enough. -/
def EncAppends (s : WState) (dup : Bool) (m : Mutation) : Prop :=
  8 + header s.file + (kvToBytes (bufOf m)).length + 12 ≤ s.file.length ∨
  ((s.needTrim || dup) = false ∧ 8 + header s.file + (kvToBytes (bufOf m)).length + 12 ≤ s.file.length + s.page)

/-- What a death inside an append leaves, for any codec. -/
theorem crash_cases_any {c : Codec} {s : WState} {items : List (Option Buffer)} {content : Bytes} (hv : Valid c s content items)
    (hq : s.quota = none) {b : Buffer} {r : Bytes} (henc : c.enc b items.length = some r) (order : Order) (dup : Bool)
    (hroom : 8 + content.length + r.length ≤ s.file.length ∨
      ((s.needTrim || dup) = false ∧ 8 + content.length + r.length ≤ s.file.length + s.page)) {f : Bytes}
    (hcrash : Crash s.file (s.effects c order b dup) f) :
    f = s.file ∨ ∃ h' r' rest, h'.length = 8 ∧ r'.length = r.length ∧ f = h' ++ content ++ r' ++ rest := by
  obtain ⟨_, tail, hfile⟩ := hv.holds
  by_cases hfit : content.length + 8 + r.length ≤ s.file.length
  · rw [effects_fit order b dup hv henc hfit, hfile] at hcrash
    rw [hfile] at hfit
    obtain ⟨h', r', h1, h2, h3, _⟩ := crash_append (by simp) (by simp) (by simp at hfit; omega) hcrash
    exact .inr ⟨h', r', _, h1, h2, h3⟩
  · obtain ⟨hnt, hle⟩ : (s.needTrim || dup) = false ∧ 8 + content.length + r.length ≤ s.file.length + s.page := by
      rcases hroom with hr | hr
      · omega
      · exact hr
    rw [effects_expand order b dup hv hq hnt henc (by omega) (by omega)] at hcrash
    cases hcrash with
    | here => exact .inl rfl
    | later _ _ _ _ hcrash =>
      have happ : Eff.apply s.file (.setLen (s.file.length + s.page)) = beBytes 8 content.length ++ content ++ (tail ++ zeros s.page) := by
        simp only [Eff.apply]
        rw [List.take_of_length_le (by omega), Nat.add_sub_cancel_left]
        conv => lhs; rw [hfile]
        simp
      rw [happ] at hcrash
      have hlen : s.file.length = 8 + content.length + tail.length := by rw [hfile]; simp; omega
      obtain ⟨h', r', h1, h2, h3, _⟩ := crash_append (by simp) (by simp) (by simp [zeros]; omega) hcrash
      exact .inr ⟨h', r', _, h1, h2, h3⟩

/-- **C11** for an encrypted store, the part that always holds: whenever the process dies inside an append, every byte of
the encrypted records already stored is untouched. -/
theorem C11_encrypted_old_records_untouched {C : Cipher} {k nonce : Bytes} {s : WState} {items : List (Option Buffer)}
    (h : EncResting C k nonce s items) {m : Mutation} (hpos : items.length < 2 ^ 32 - 1) (order : Order) (dup : Bool)
    (hroom : EncAppends s dup m) {f : Bytes}
    (hcrash : Crash s.file (s.effects (aeadCodec ⟨C, k, nonce⟩) order (bufOf m) dup) f) :
    (f.drop 8).take (header s.file) = (s.file.drop 8).take (header s.file) := by
  obtain ⟨content, hv, hc⟩ := h.valid
  unfold EncAppends at hroom
  rw [hc] at hroom
  have hl := encRecordOf_length C k nonce items.length m
  rcases crash_cases_any hv h.rest.disk (enc_encRecordOf C k nonce m hpos) order dup
    (by rw [hl]; exact hroom.imp (fun h => by omega) (fun h => ⟨h.1, by omega⟩)) hcrash with rfl | ⟨h', r', rest, h1, h2, rfl⟩
  · rfl
  · obtain ⟨_, tail, hfile⟩ := hv.holds
    rw [hc]
    conv => rhs; rw [hfile]
    rw [List.append_assoc, List.append_assoc, List.drop_left' h1, List.take_left' rfl,
      List.append_assoc, List.drop_left' (by simp), List.take_left' rfl]

/-- A record whose length field is right but whose ciphertext is refused reads as nothing. -/
theorem framed_refused {S : Stream} {t : Bytes} (h4 : 4 ≤ t.length) (h32 : t.length < 2 ^ 32) (hl : t.take 4 = beBytes 4 (t.length - 4))
    {pos : Nat} (hc : S.cipher.decrypt S.key S.nonce pos (t.drop 4) = none) : Framed (aeadCodec S) pos t [none] := by
  refine Framed.single (by intro h; rw [h] at h4; simp at h4) fun rest => ?_
  have e1 : (t ++ rest).take 4 = t.take 4 := List.take_append_of_le_length h4
  have e2 : beVal (t.take 4) = t.length - 4 := by rw [hl, beVal_beBytes _ _ (by omega)]
  show aeadDec S (t ++ rest) pos = _
  unfold aeadDec
  rw [if_neg (by simp; omega)]
  simp only [e1, e2]
  rw [if_neg (by simp; omega), if_neg (by omega)]
  have e3 : ((t ++ rest).drop 4).take (t.length - 4) = t.drop 4 := by
    rw [List.drop_append_of_le_length h4, List.take_left' (by simp)]
  have e4 : S.decrypt (t.drop 4) pos = none := by
    unfold Stream.decrypt
    split
    · rfl
    · exact hc
  rw [e3, e4]
  show DecRes.ok none (4 + (t.length - 4)) = _
  rw [show 4 + (t.length - 4) = t.length by omega]

theorem framed_encRecord {C : Cipher} {k nonce : Bytes} {m : Mutation} (hm : EncRecorded m) {pos : Nat} (hp : pos < 2 ^ 32 - 1) :
    Framed (aeadCodec ⟨C, k, nonce⟩) pos (encRecordOf C k nonce pos m) [some (bufOf m)] := by
  obtain ⟨r, h1, _, h3⟩ := framed_enc (aead_lawful ⟨C, k, nonce⟩) (bufOf m) pos hm.buf.2 hp
  rw [enc_encRecordOf C k nonce m hp] at h1
  injection h1 with h1
  rw [h1]
  exact h3

/-- **C11** for an encrypted store, what is true: if the process dies at any instant of an append, reopening with the same
key shows the map before or after it - unless it died inside the eight bytes of the length header, or after the header
with the new record's length field not completely stored, or the incomplete ciphertext is one the cipher accepts (which
its authenticity makes improbable; the model does not assume it).
Missing from C11: those three cases; `C11_encrypted_refuted` shows that the second is real. -/
theorem C11_encrypted_partial {C : Cipher} {key : String} {k nonce : Bytes} {s : WState} {items : List (Option Buffer)}
    (h : EncResting C k nonce s items) (hk : decodeKey key = some k) (hn : nonce.length = 11)
    {m : Mutation} (hm : EncRecorded m) (hpos : items.length < 2 ^ 32 - 1)
    (hsz : header s.file + (kvToBytes (bufOf m)).length + 12 + 8 < 2 ^ 64) (order : Order) (dup : Bool)
    (hroom : EncAppends s dup m) {S : Store} (hS : EncFileShows C key nonce s.file S) {f : Bytes}
    (hcrash : Crash s.file (s.effects (aeadCodec ⟨C, k, nonce⟩) order (bufOf m) dup) f) :
    EncFileShows C key nonce f S ∨ EncFileShows C key nonce f (S.apply m) ∨
    (header f ≠ header s.file ∧ header f ≠ header s.file + (kvToBytes (bufOf m)).length + 12) ∨
    (header f = header s.file + (kvToBytes (bufOf m)).length + 12 ∧
      ∃ t, t = (f.drop (8 + header s.file)).take ((kvToBytes (bufOf m)).length + 12) ∧ t ≠ encRecordOf C k nonce items.length m ∧
        (t.take 4 ≠ beBytes 4 ((kvToBytes (bufOf m)).length + 8) ∨ (C.decrypt k nonce items.length (t.drop 4)).isSome)) := by
  obtain ⟨content, hv, hc⟩ := h.valid
  have hSS := encFileShows_unique (h.shows hk hn) hS
  subst hSS
  have hl := encRecordOf_length C k nonce items.length m
  unfold EncAppends at hroom
  rw [hc] at hroom
  rcases crash_cases_any hv h.rest.disk (enc_encRecordOf C k nonce m hpos) order dup
    (by rw [hl]; exact hroom.imp (fun h => by omega) (fun h => ⟨h.1, by omega⟩)) hcrash with rfl | ⟨h', r', rest, h1, h2, rfl⟩
  · exact .inl hS
  rw [hc] at hsz ⊢
  rw [hl] at h2
  have hhead : header (h' ++ content ++ r' ++ rest) = beVal h' := by
    unfold header
    rw [List.append_assoc, List.append_assoc, List.take_left' h1]
  have hbe : beBytes 8 (beVal h') = h' := by
    have := beBytes_beVal h'; rwa [h1] at this
  rw [hhead]
  by_cases e0 : beVal h' = content.length
  · left
    have hh : Holds (h' ++ content ++ r' ++ rest) content :=
      ⟨by omega, r' ++ rest, by rw [← e0, hbe]; simp⟩
    exact openEnc_framed hk hn hh hv.framed
  by_cases e1 : beVal h' = content.length + (kvToBytes (bufOf m)).length + 12
  · have hh : Holds (h' ++ content ++ r' ++ rest) (content ++ r') :=
      ⟨by simp; omega, rest, by rw [List.length_append, h2, ← Nat.add_assoc, ← e1, hbe]; simp⟩
    have hplace : r' = ((h' ++ content ++ r' ++ rest).drop (8 + content.length)).take ((kvToBytes (bufOf m)).length + 12) := by
      rw [List.append_assoc, List.drop_left' (by simp; omega), List.take_left' h2]
    by_cases er : r' = encRecordOf C k nonce items.length m
    · right; left
      subst er
      have hf := hv.framed.append (framed_encRecord (C := C) (k := k) (nonce := nonce) (pos := 0 + items.length) hm (by omega))
      rw [Nat.zero_add] at hf
      have hmu : Store.empty.run (mutations (items ++ [some (bufOf m)])) = (Store.empty.run (mutations items)).apply m := by
        have := hm.buf.1
        simp [mutations, Store.run, this]
      rw [← hmu]
      exact openEnc_framed hk hn hh hf
    · by_cases e4 : r'.take 4 = beBytes 4 ((kvToBytes (bufOf m)).length + 8)
      · cases hck : C.decrypt k nonce items.length (r'.drop 4) with
        | some p => exact .inr (.inr (.inr ⟨e1, r', hplace, er, .inr (by rw [hck]; rfl)⟩))
        | none =>
          left
          have hok := hm.buf.2
          unfold aeadOk at hok
          have hf := hv.framed.append (framed_refused (S := ⟨C, k, nonce⟩) (t := r') (pos := 0 + items.length) (by omega) (by omega)
            (by rw [e4, h2]; rfl) (by rw [Nat.zero_add]; exact hck))
          have hmu : Store.empty.run (mutations (items ++ [none])) = Store.empty.run (mutations items) := by
            simp [mutations]
          rw [← hmu]
          exact openEnc_framed hk hn hh hf
      · exact .inr (.inr (.inr ⟨e1, r', hplace, er, .inl e4⟩))
  · exact .inr (.inr (.inl ⟨e0, e1⟩))

/-- Zeros are read four bytes at a time; a rest of one to three bytes is a panic. -/
theorem iterLoop_zeros (S : Stream) : ∀ (n fuel pos : Nat), n % 4 ≠ 0 → n ≤ fuel → iterLoop (aeadCodec S) fuel pos (zeros n) = none := by
  intro n
  induction n using Nat.strongRecOn with
  | _ n ih =>
    intro fuel pos hn hf
    cases fuel with
    | zero => omega
    | succ fuel =>
      cases hz : zeros n with
      | nil => have := congrArg List.length hz; simp [zeros] at this; omega
      | cons b bs =>
        unfold iterLoop
        rw [← hz]
        by_cases h4 : n < 4
        · have : (aeadCodec S).dec (zeros n) pos = .panic := by
            show aeadDec S _ _ = _
            unfold aeadDec
            rw [if_pos (by simp [zeros]; omega)]
          rw [this]
        · have ht : (zeros n).take 4 = zeros 4 := by
            unfold zeros
            rw [List.take_replicate, Nat.min_eq_left (by omega)]
          have hv0 : beVal (zeros 4) = 0 := by decide
          have : ∃ ob, (aeadCodec S).dec (zeros n) pos = .ok ob 4 := by
            show ∃ ob, aeadDec S _ _ = _
            unfold aeadDec
            rw [if_neg (by simp [zeros]; omega)]
            simp only [ht, hv0]
            rw [if_neg (by simp [zeros]; omega), if_neg (by omega)]
            exact ⟨_, rfl⟩
          obtain ⟨ob, hd⟩ := this
          rw [hd]
          simp only []
          have hdrop : (zeros n).drop 4 = zeros (n - 4) := by
            unfold zeros
            rw [List.drop_replicate]
          rw [hdrop, ih (n - 4) (by omega) fuel (pos + 1) (by omega) (by omega)]
          rfl

/-- **C11 is false** for encrypted stores too, in every state: if the process dies between the store of the length header
and the store of the record, the room after the content is still zero (as a fresh page is) and the record is not a
multiple of four bytes long, the directory cannot be opened any more. -/
theorem C11_encrypted_refuted {C : Cipher} {k nonce : Bytes} {s : WState} {items : List (Option Buffer)}
    (h : EncResting C k nonce s items) {m : Mutation} (hpos : items.length < 2 ^ 32 - 1)
    (hsz : header s.file + (kvToBytes (bufOf m)).length + 12 + 8 < 2 ^ 64) (order : Order) (dup : Bool)
    (hfit : 8 + header s.file + (kvToBytes (bufOf m)).length + 12 ≤ s.file.length)
    (hzero : (s.file.drop (8 + header s.file)).take ((kvToBytes (bufOf m)).length + 12) = zeros ((kvToBytes (bufOf m)).length + 12))
    (hodd : (kvToBytes (bufOf m)).length % 4 ≠ 0) :
    ∃ f, Crash s.file (s.effects (aeadCodec ⟨C, k, nonce⟩) order (bufOf m) dup) f ∧
      ∀ key page rand, decodeKey key = some k → nonce.length = 11 → openEnc C page key rand ⟨f, some nonce⟩ = none := by
  obtain ⟨content, hv, hc⟩ := h.valid
  have hl := encRecordOf_length C k nonce items.length m
  rw [hc] at hsz hfit hzero
  generalize hr : encRecordOf C k nonce items.length m = r at *
  have henc := enc_encRecordOf C k nonce m hpos
  rw [hr] at henc
  have heff := effects_fit order (bufOf m) dup hv henc (by omega)
  rw [heff]
  obtain ⟨_, tail, hfile⟩ := hv.holds
  have hlen : s.file.length = 8 + content.length + tail.length := by rw [hfile]; simp; omega
  refine ⟨_, .later _ _ _ _ (.here _ _), ?_⟩
  have hsp : Eff.apply s.file (.store 0 (beBytes 8 (r.length + content.length))) =
      beBytes 8 (r.length + content.length) ++ content ++ tail := by
    simp only [Eff.apply]
    rw [hfile]
    have := splice_mid [] (beBytes 8 content.length) (content ++ tail) (beBytes 8 (r.length + content.length)) (by simp)
    simpa using this
  rw [hsp]
  rw [← hl] at hzero
  have ht : tail.take r.length = zeros r.length := by
    rw [hfile, List.drop_left' (by simp)] at hzero
    exact hzero
  intro key page rand hk hn
  rw [openEnc_eq hk]
  simp only [initNonce, show nonceLen = 11 from rfl, hn, if_true]
  have hread : WState.readItems { file := beBytes 8 (r.length + content.length) ++ content ++ tail, mmLen := (beBytes 8 (r.length + content.length) ++ content ++ tail).length, page := page, position := 0, needTrim := false } (aeadCodec ⟨C, k, nonce⟩) = none := by
    unfold WState.readItems WState.writeOffset WState.lenOffset
    have htake : (beBytes 8 (r.length + content.length) ++ content ++ tail).take 8 = beBytes 8 (r.length + content.length) := by
      rw [List.append_assoc]; exact List.take_left' (by simp)
    rw [if_neg (by simp), if_neg (by simp)]
    simp only [htake]
    rw [beVal_beBytes _ _ (by omega), if_pos (by omega)]
    simp only []
    rw [if_neg (by omega), if_neg (by simp; omega)]
    have hbody : ((beBytes 8 (r.length + content.length) ++ content ++ tail).take (r.length + content.length + 8)).drop 8 =
        content ++ zeros r.length := by
      rw [List.append_assoc, List.take_append, List.drop_append]
      simp only [beBytes_length]
      rw [List.take_of_length_le (l := beBytes 8 _) (by simp)]
      rw [List.drop_of_length_le (l := beBytes 8 _) (by simp), List.nil_append, beBytes_length]
      rw [show r.length + content.length + 8 - 8 = r.length + content.length by omega, Nat.sub_self, List.drop_zero,
        List.take_append, List.take_of_length_le (by omega), Nat.add_sub_cancel, ht]
    rw [hbody]
    obtain ⟨fuel', hf1, hf2⟩ := hv.framed.iter_append (zeros r.length) _ (Nat.le_of_eq (List.length_append (as := content)).symm)
    rw [hf2, iterLoop_zeros _ _ _ _ (by omega) (by simpa [zeros] using hf1)]
    rfl
  unfold openAt openStore encrypted
  have hne : (beBytes 8 (r.length + content.length) ++ content ++ tail).length ≠ 0 := by simp
  simp only [configNew, hne, if_false, hread]

/-- **C12 is false** for encrypted stores too, in every state: if the process dies right after the first store of a
compaction, the store is empty when it is opened again. -/
theorem C12_encrypted_refuted {C : Cipher} {key : String} {k nonce : Bytes} {s : WState} {items : List (Option Buffer)}
    (h : EncResting C k nonce s items) (hk : decodeKey key = some k) (hn : nonce.length = 11)
    {m : Mutation} (hpos : items.length < 2 ^ 32 - 1) (order : Order) (dup : Bool)
    (hfull : s.file.length < 8 + header s.file + (kvToBytes (bufOf m)).length + 12) (hdue : (s.needTrim || dup) = true) :
    ∃ f, Crash s.file (s.effects (aeadCodec ⟨C, k, nonce⟩) order (bufOf m) dup) f ∧ EncFileShows C key nonce f Store.empty := by
  obtain ⟨content, hv, hc⟩ := h.valid
  rw [hc] at hfull
  have hl := encRecordOf_length C k nonce items.length m
  obtain ⟨s1, f1, f2, v1, _, _, hw⟩ := effects_trim order (bufOf m) dup hv hdue (enc_encRecordOf C k nonce m hpos) (by omega)
  obtain ⟨es, hes, _⟩ := logged_trimLoop (c := aeadCodec ⟨C, k, nonce⟩) s.mmLen (order (mapStep (intoMap items).1 (some (bufOf m))).values) s1
  have heff : ∃ rest, s.effects (aeadCodec ⟨C, k, nonce⟩) order (bufOf m) dup = .store 0 (beBytes 8 0) :: rest := by
    refine ⟨es, ?_⟩
    unfold WState.effects
    rw [hw]
    have : ((WState.trimLoop (aeadCodec ⟨C, k, nonce⟩) s.mmLen (order (mapStep (intoMap items).1 (some (bufOf m))).values) s1).andThen
        fun s => .done { s with needTrim := false }).state.log = s.log ++ (.store 0 (beBytes 8 0) :: es) := by
      cases hr : WState.trimLoop (aeadCodec ⟨C, k, nonce⟩) s.mmLen (order (mapStep (intoMap items).1 (some (bufOf m))).values) s1 with
      | done s2 => rw [hr] at hes; simp only [Run.andThen_done, Run.state_done] at hes ⊢; rw [hes, f2]; simp
      | panic s2 => rw [hr] at hes; simp only [Run.andThen_panic, Run.state_panic] at hes ⊢; rw [hes, f2]; simp
    rw [this, List.drop_left' rfl]
  obtain ⟨rest, heff⟩ := heff
  rw [heff]
  refine ⟨_, .later _ _ _ _ (.here _ _), ?_⟩
  have : Eff.apply s.file (.store 0 (beBytes 8 0)) = s1.file := f1.symm
  rw [this]
  exact openEnc_framed hk hn v1.holds v1.framed

/-- Every encrypted record that `items` and `m` would be rewritten to is below 4 GiB, the total below 2^64, and the
counter is not exhausted. -/
def EncSizes (items : List (Option Buffer)) (m : Mutation) : Prop :=
  (∀ b, some b ∈ items → encRecordSize b.key b.type b.value < 2 ^ 32) ∧
  ((items.filterMap id).map fun b => encRecordSize b.key b.type b.value).sum + (kvToBytes (bufOf m)).length + 12 + 8 < 2 ^ 64 ∧
  items.length + 1 < 2 ^ 32 - 1

theorem aeadLen_eq (b : Buffer) : aeadLen b = encRecordSize b.key b.type b.value := by
  show (kvToBytes b).length + 12 = 4 + (kvToBytes b).length + 8
  omega

/-- **C12** for an encrypted store, what is true: if the process dies during a compaction that would complete, at any point
between two effects other than a length header and its record, reopening with the same key shows part of the new map:
every key shown has the value it should have, some may be missing.  Missing from C12: the keys not yet rewritten
(`C12_encrypted_refuted`), and deaths between header and record. -/
theorem C12_encrypted_partial {C : Cipher} {key : String} {k nonce : Bytes} {s s' : WState} {items : List (Option Buffer)}
    (h : EncResting C k nonce s items) (hk : decodeKey key = some k) (hn : nonce.length = 11)
    {m : Mutation} (hm : EncRecorded m) (hsz : EncSizes items m) {order : Order} (ho : ∀ l, (order l).Perm l) (dup : Bool) {S : Store}
    (hS : EncFileShows C key nonce s.file S)
    (hfull : s.file.length < 8 + header s.file + (kvToBytes (bufOf m)).length + 12) (hdue : (s.needTrim || dup) = true)
    (hdone : WState.write (aeadCodec ⟨C, k, nonce⟩) order (bufOf m) dup s = .done s')
    (n : Nat) (hle : n ≤ (s.effects (aeadCodec ⟨C, k, nonce⟩) order (bufOf m) dup).length)
    (hnext : dataNext (s.effects (aeadCodec ⟨C, k, nonce⟩) order (bufOf m) dup) n = false) :
    ∃ f S', Crash s.file (s.effects (aeadCodec ⟨C, k, nonce⟩) order (bufOf m) dup) f ∧
      f = ((s.effects (aeadCodec ⟨C, k, nonce⟩) order (bufOf m) dup).take n).foldl Eff.apply s.file ∧ EncFileShows C key nonce f S' ∧
      (n = 0 → S' = S) ∧ (0 < n → ∀ x e, S' x = some e → (S.apply m) x = some e) ∧
      (n = (s.effects (aeadCodec ⟨C, k, nonce⟩) order (bufOf m) dup).length → S' = S.apply m) := by
  obtain ⟨content, hv, hc⟩ := h.valid
  obtain ⟨b1, b3⟩ := hm.buf
  obtain ⟨z1, z2, z3⟩ := hsz
  have hSS := encFileShows_unique (h.shows hk hn) hS
  subst hSS
  rw [hc] at hfull
  have hl := encRecordOf_length C k nonce items.length m
  obtain ⟨s1, f1, f2, v1, q1, _, hw⟩ := effects_trim order (bufOf m) dup hv hdue (enc_encRecordOf C k nonce m (by unfold counterMax; omega)) (by omega)
  have hwf : MapWF (mapStep (intoMap items).1 (some (bufOf m))) := (MapWF.intoMap items).mapStep _
  have hview : view (mapStep (intoMap items).1 (some (bufOf m))) = (Store.empty.run (mutations items)).apply m := by
    rw [view_mapStep_some, view_intoMap, b1]
  have hmem := fun b => @mem_snapshot items (bufOf m) b
  have hsum := snapshot_sum (recLen := aeadLen) items (bufOf m)
  have hcount := snapshot_length items (bufOf m)
  generalize mapStep (intoMap items).1 (some (bufOf m)) = mp at *
  have hrs : recSum aeadLen items = ((items.filterMap id).map fun b => encRecordSize b.key b.type b.value).sum := by
    unfold recSum sumLen
    congr 1
    apply List.map_congr_left
    intro b _
    exact aeadLen_eq b
  have hok : ∀ b ∈ order mp.values, aeadOk b := by
    intro b hb
    have := hmem b ((ho _).mem_iff.1 hb)
    simp only [List.mem_append, List.mem_singleton] at this
    rcases this with hb' | hb'
    · have := z1 b hb'
      rw [← aeadLen_eq] at this
      exact this
    · injection hb' with hb'; subst hb'; exact b3
  have htot : ([] : Bytes).length + sumLen aeadLen (order mp.values) + 8 < 2 ^ 64 := by
    rw [sumLen_perm _ (ho _)]
    rw [hrs] at hsum
    have : aeadLen (bufOf m) = (kvToBytes (bufOf m)).length + 12 := rfl
    simp only [List.length_nil]
    omega
  have hposn : aeadPos (([] : List (Option Buffer)).length + (order mp.values).length) := by
    have h1 : (order mp.values).length = mp.values.length := (ho _).length_eq
    have h2 : mp.values.length = mp.length := by simp [KvMap.values]
    show _ < counterMax
    unfold counterMax
    simp only [List.length_nil]
    omega
  have hmx : s.mmLen ≤ s1.file.length := by
    rw [f1, splice_length _ _ _ (by have := hv.holds.len; simp; omega), hv.mm]
    exact Nat.le_refl _
  cases hr : WState.trimLoop (aeadCodec ⟨C, k, nonce⟩) s.mmLen (order mp.values) s1 with
  | panic s2 => rw [hw, hr] at hdone; cases hdone
  | done s2 =>
    obtain ⟨es, hes, hcr⟩ := trimLoop_crash (aead_lawful ⟨C, k, nonce⟩) s.mmLen (order mp.values) s1 s2 [] [] v1 (by rw [q1, h.rest.disk])
      hok htot hposn hr
    have heff : s.effects (aeadCodec ⟨C, k, nonce⟩) order (bufOf m) dup = .store 0 (beBytes 8 0) :: es := by
      unfold WState.effects
      rw [hw, hr]
      simp only [Run.andThen_done, Run.state_done]
      rw [hes, f2, List.append_assoc, List.drop_left' rfl]
      rfl
    have hrun := run_values mp hwf (order mp.values) (ho _)
    rw [hview] at hrun
    have hfin := effects_apply (c := aeadCodec ⟨C, k, nonce⟩) order (bufOf m) dup s
    rw [hdone, Run.state_done] at hfin
    have hafter : EncFileShows C key nonce s'.file ((Store.empty.run (mutations items)).apply m) := by
      rcases trimLoop_or (aead_lawful ⟨C, k, nonce⟩) s.mmLen (order mp.values) s1 [] [] v1 (by rw [q1, h.rest.disk]) hmx hok htot hposn with
        ⟨s3, content', h1, h2, _⟩ | ⟨s3, h1, _⟩
      · rw [hr] at h1
        injection h1 with h1
        subst h1
        rw [hw, hr] at hdone
        simp only [Run.andThen_done] at hdone
        injection hdone with hdone
        have hfs : s'.file = s2.file := by rw [← hdone]
        rw [hfs, ← hrun]
        exact openEnc_framed hk hn h2.holds h2.framed
      · rw [hr] at h1; cases h1
    have hcrash := Crash.boundary (s.effects (aeadCodec ⟨C, k, nonce⟩) order (bufOf m) dup) s.file n
    rw [heff] at hle hnext hfin hcrash ⊢
    match n with
    | 0 =>
      exact ⟨_, _, hcrash, rfl, hS, fun _ => rfl, fun h => absurd h (by omega), fun h => by simp at h⟩
    | n + 1 =>
      have hs1 : Eff.apply s.file (.store 0 (beBytes 8 0)) = s1.file := f1.symm
      obtain ⟨j, content', hj, hh, hf⟩ := hcr n (by simpa using hle) (by simpa [dataNext] using hnext)
      have hshow : EncFileShows C key nonce ((((.store 0 (beBytes 8 0) :: es).take (n + 1)).foldl Eff.apply s.file))
          (Store.empty.run (mutations (((order mp.values).take j).map some))) := by
        simp only [List.take_succ_cons, List.foldl_cons, hs1]
        have := openEnc_framed hk hn hh hf
        simpa using this
      refine ⟨_, _, hcrash, rfl, hshow, fun h => by omega, ?_, ?_⟩
      · intro _ x e he
        have hnd : ((order mp.values).map (·.key)).Nodup := by
          have hk1 : mp.values.map (·.key) = mp.map (·.1) := by
            unfold KvMap.values
            rw [List.map_map]
            apply List.map_congr_left
            intro p hp
            exact (hwf.keyed p.1 p.2 hp).1
          have := ((ho mp.values).map (·.key)).nodup_iff.2 (by rw [hk1]; exact hwf.unique)
          exact this
        have hlive : ∀ b ∈ order mp.values, b.isDeleting = false := by
          intro b hb
          have hb := (ho _).mem_iff.1 hb
          unfold KvMap.values at hb
          obtain ⟨p, hp, rfl⟩ := List.mem_map.1 hb
          exact (hwf.keyed p.1 p.2 hp).2
        rw [← hrun, run_puts _ _ hlive hnd]
        rw [run_puts _ _ (fun b hb => hlive b (List.mem_of_mem_take hb))
          ((List.take_sublist j _).map _ |>.nodup hnd)] at he
        have hfa : (order mp.values).find? (fun b => b.key == x) =
            (((order mp.values).take j).find? (fun b => b.key == x)).or (((order mp.values).drop j).find? (fun b => b.key == x)) := by
          rw [← List.find?_append, List.take_append_drop]
        rw [hfa]
        cases hfi : ((order mp.values).take j).find? (fun b => b.key == x) with
        | none => rw [hfi] at he; cases he
        | some b => rw [hfi] at he; exact he
      · intro hlast
        rw [hlast, List.take_length, hfin] at hshow
        exact encFileShows_unique hshow hafter

/-! ### A concrete store (toy cipher) -/

/-- `b` put and deleted, `a` put twice, encrypted, then some room. -/
def encDemoFile (slack : Nat) : Bytes :=
  fileOf [encRecordOf toy testKeyBytes nonce1 0 (.put "b" ⟨2, [0]⟩), encRecordOf toy testKeyBytes nonce1 1 (.put "a" ⟨2, [1]⟩),
    encRecordOf toy testKeyBytes nonce1 2 (.delete "b"), encRecordOf toy testKeyBytes nonce1 3 (.put "a" ⟨2, [0]⟩)] (zeros slack)

/-- The writer of such a file. -/
def encDemo (slack : Nat) : WState :=
  { file := encDemoFile slack, mmLen := (encDemoFile slack).length, page := 64, position := 4, needTrim := true }

theorem encDemo_resting : ∀ n ∈ [0, 40], EncResting toy testKeyBytes nonce1 (encDemo n)
    [some ⟨"b", 2, [0]⟩, some ⟨"a", 2, [1]⟩, some ⟨"b", 100, []⟩, some ⟨"a", 2, [0]⟩] := by
  intro n hn
  simp only [List.mem_cons, List.not_mem_nil, or_false] at hn
  rcases hn with rfl | rfl
  · exact ⟨⟨rfl, rfl, rfl, [some ⟨"b", 2, [0]⟩, some ⟨"a", 2, [1]⟩, some ⟨"b", 100, []⟩, some ⟨"a", 2, [0]⟩], by decide +kernel, rfl⟩, by decide +kernel⟩
  · exact ⟨⟨rfl, rfl, rfl, [some ⟨"b", 2, [0]⟩, some ⟨"a", 2, [1]⟩, some ⟨"b", 100, []⟩, some ⟨"a", 2, [0]⟩], by decide +kernel, rfl⟩, by decide +kernel⟩

/-- The hypotheses of the encrypted C11: the next record fits, the room is zero, the record has 21 bytes. -/
example : decodeKey testKey = some testKeyBytes ∧ nonce1.length = 11 ∧ EncRecorded (.put "cd" ⟨2, [1]⟩) ∧
    EncAppends (encDemo 40) false (.put "cd" ⟨2, [1]⟩) ∧
    ((encDemo 40).file.drop (8 + header (encDemo 40).file)).take ((kvToBytes (bufOf (.put "cd" ⟨2, [1]⟩))).length + 12) =
      zeros ((kvToBytes (bufOf (.put "cd" ⟨2, [1]⟩))).length + 12) ∧ (kvToBytes (bufOf (.put "cd" ⟨2, [1]⟩))).length % 4 ≠ 0 := by
  refine ⟨decode_testKey, by decide, ⟨by decide, by decide +kernel⟩, .inl (by decide +kernel), by decide +kernel, by decide +kernel⟩

/-- The hypotheses of the encrypted C12: no room, a compaction is due and completes. -/
example : EncSizes [some ⟨"b", 2, [0]⟩, some ⟨"a", 2, [1]⟩, some ⟨"b", 100, []⟩, some ⟨"a", 2, [0]⟩] (.put "a" ⟨2, [1]⟩) ∧
    (encDemo 0).file.length < 8 + header (encDemo 0).file + (kvToBytes (bufOf (.put "a" ⟨2, [1]⟩))).length + 12 ∧
    ((encDemo 0).needTrim || true) = true ∧
    (WState.write (aeadCodec ⟨toy, testKeyBytes, nonce1⟩) idOrder (bufOf (.put "a" ⟨2, [1]⟩)) true (encDemo 0)).isDone = true := by
  refine ⟨⟨?_, by decide +kernel, by decide⟩, by decide +kernel, rfl, by decide +kernel⟩
  intro b hb
  simp only [List.mem_cons, List.not_mem_nil, or_false, Option.some.injEq] at hb
  rcases hb with rfl | rfl | rfl | rfl <;> decide +kernel

end Mmkv
