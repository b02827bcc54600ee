import Verif.Props.Encrypt
/-!
# C72: the `encryption` feature switched on or off over an existing directory

The data file has the same name with and without the feature (src/mmkv.rs:114-126), and both encodings frame a record by four bytes
of length (src/core/crc.rs:14-24, src/core/encrypt.rs:133-142).
-/

namespace Mmkv
open Spec Inst

/-- What the decoder without encryption makes of the bytes of one record (src/core/crc.rs:29-36). -/
def decodeFrame (f : Bytes) : Option Buffer :=
  if crc8 (f.take (f.length - 1)) = f.getD (f.length - 1) 0 then kvFromBytes (f.take (f.length - 1)) else none

namespace Switch

/-- The content is these records, each after four bytes with its length. -/
inductive Frames : Bytes → List Bytes → Prop
  | nil : Frames [] []
  | cons {chunk content f fs} (h4 : 4 ≤ chunk.length) (hn : beVal (chunk.take 4) = f.length) (hf : chunk.drop 4 = f)
      (h32 : 4 + f.length < 2 ^ 32) (tail : Frames content fs) : Frames (chunk ++ content) (f :: fs)

theorem crcDec_inv {data : Bytes} {pos : Nat} {ob : Option Buffer} {len : Nat} (h : crcDec data pos = .ok ob len) :
    4 ≤ data.length ∧ 4 + beVal (data.take 4) ≤ data.length ∧ 4 + beVal (data.take 4) < 2 ^ 32 ∧ len = 4 + beVal (data.take 4) ∧
      beVal (data.take 4) ≠ 0 ∧ ob = decodeFrame ((data.drop 4).take (beVal (data.take 4))) := by
  unfold crcDec at h
  split at h
  · cases h
  simp only [] at h
  split at h
  · cases h
  split at h
  · cases h
  split at h
  · cases h
  injection h with h1 h2
  refine ⟨by omega, by omega, by omega, h2.symm, by assumption, ?_⟩
  rw [← h1]
  unfold decodeFrame
  have hl : ((data.drop 4).take (beVal (data.take 4))).length = beVal (data.take 4) := by simp; omega
  rw [hl, List.take_take, Nat.min_eq_left (by omega)]
  congr 2
  simp only [List.getD_eq_getElem?_getD]
  rw [List.getElem?_take, if_pos (by omega), List.getElem?_drop]
  congr 2
  omega

theorem crcDec_ok {data : Bytes} (pos : Nat) (h4 : 4 ≤ data.length) (hl : 4 + beVal (data.take 4) ≤ data.length)
    (h32 : 4 + beVal (data.take 4) < 2 ^ 32) (h0 : beVal (data.take 4) ≠ 0) :
    crcDec data pos = .ok (decodeFrame ((data.drop 4).take (beVal (data.take 4)))) (4 + beVal (data.take 4)) := by
  cases h : crcDec data pos with
  | ok ob len =>
    obtain ⟨_, _, _, h1, _, h2⟩ := crcDec_inv h
    rw [h1, h2]
  | panic =>
    unfold crcDec at h
    rw [if_neg (by omega)] at h
    simp only [] at h
    rw [if_neg h0, if_neg (by omega), if_neg (by omega)] at h
    cases h
  | err =>
    unfold crcDec at h
    rw [if_neg (by omega)] at h
    simp only [] at h
    rw [if_neg h0, if_neg (by omega), if_neg (by omega)] at h
    cases h

theorem chunk_facts {chunk f : Bytes} (h4 : 4 ≤ chunk.length) (hf : chunk.drop 4 = f)
    (rest : Bytes) : (chunk ++ rest).take 4 = chunk.take 4 ∧ chunk.length = 4 + f.length ∧ ((chunk ++ rest).drop 4).take f.length = f := by
  have hl : chunk.length = 4 + f.length := by rw [← hf]; simp; omega
  refine ⟨List.take_append_of_le_length h4, hl, ?_⟩
  rw [List.drop_append_of_le_length h4, hf, List.take_left' rfl]

theorem Frames.of_crc {pos : Nat} {content : Bytes} {items : List (Option Buffer)} (h : Framed crcCodec pos content items) :
    ∃ fs, Frames content fs ∧ (∀ f ∈ fs, f ≠ []) ∧ items = fs.map decodeFrame := by
  induction h with
  | nil pos => exact ⟨[], .nil, by simp, rfl⟩
  | cons pos chunk content ob items hne hdec htail ih =>
    obtain ⟨fs, h1, h2, h3⟩ := ih
    have hd0 : crcDec chunk pos = .ok ob chunk.length := by
      have := hdec []
      rw [List.append_nil] at this
      exact this
    obtain ⟨e1, e2, e3, e4, e0, e5⟩ := crcDec_inv hd0
    have hdl : (chunk.drop 4).length = beVal (chunk.take 4) := by simp; omega
    have htk : (chunk.drop 4).take (beVal (chunk.take 4)) = chunk.drop 4 := by rw [← hdl, List.take_length]
    refine ⟨chunk.drop 4 :: fs, .cons e1 hdl.symm rfl (by omega) h1, ?_, ?_⟩
    · intro f hf
      rcases List.mem_cons.1 hf with rfl | hf
      · intro hnil; rw [hnil] at hdl; simp at hdl; omega
      · exact h2 f hf
    · rw [List.map_cons, ← h3, e5, htk]

theorem Frames.of_aead {S : Stream} {pos : Nat} {content : Bytes} {items : List (Option Buffer)} (h : Framed (aeadCodec S) pos content items) :
    ∃ fs, Frames content fs ∧ items = fs.mapIdx fun n f => decodeCt S (pos + n) f := by
  induction h with
  | nil pos => exact ⟨[], .nil, rfl⟩
  | cons pos chunk content ob items hne hdec htail ih =>
    obtain ⟨fs, h1, h3⟩ := ih
    have hd0 : aeadDec S chunk pos = .ok ob chunk.length := by
      have := hdec []
      rw [List.append_nil] at this
      exact this
    obtain ⟨e1, e2, e3, e4, e5⟩ := aeadDec_inv hd0
    have hdl : (chunk.drop 4).length = beVal (chunk.take 4) := by simp; omega
    have htk : (chunk.drop 4).take (beVal (chunk.take 4)) = chunk.drop 4 := by rw [← hdl, List.take_length]
    refine ⟨chunk.drop 4 :: fs, .cons e1 hdl.symm rfl (by omega) h1, ?_⟩
    rw [List.mapIdx_cons, e5, htk, h3]
    simp only [Nat.add_assoc, Nat.add_comm 1]
    rfl

theorem Frames.to_aead {content : Bytes} {fs : List Bytes} (h : Frames content fs) (S : Stream) (pos : Nat) :
    Framed (aeadCodec S) pos content (fs.mapIdx fun n f => decodeCt S (pos + n) f) := by
  induction h generalizing pos with
  | nil => exact .nil _
  | @cons chunk content f fs h4 hn hf h32 tail ih =>
    rw [List.mapIdx_cons]
    have hl := (chunk_facts h4 hf []).2.1
    refine .cons _ _ _ _ _ (by intro h; rw [h] at h4; simp at h4) ?_ ?_
    · intro rest
      obtain ⟨e1, e2, e3⟩ := chunk_facts h4 hf rest
      show aeadDec S (chunk ++ rest) pos = _
      rw [aeadDec_ok S pos (by simp; omega) (by rw [e1, hn]; simp; omega) (by rw [e1, hn]; exact h32), e1, hn, e3, e2]
      rfl
    · have := ih (pos + 1)
      simpa only [Nat.add_assoc, Nat.add_comm 1] using this

theorem Frames.to_crc {content : Bytes} {fs : List Bytes} (h : Frames content fs) (hne : ∀ f ∈ fs, f ≠ []) (pos : Nat) :
    Framed crcCodec pos content (fs.map decodeFrame) := by
  induction h generalizing pos with
  | nil => exact .nil _
  | @cons chunk content f fs h4 hn hf h32 tail ih =>
    rw [List.map_cons]
    have hf0 : f.length ≠ 0 := by simpa using hne f List.mem_cons_self
    refine .cons _ _ _ _ _ (by intro h; rw [h] at h4; simp at h4) ?_ (ih (fun g hg => hne g (List.mem_cons_of_mem _ hg)) _)
    intro rest
    obtain ⟨e1, e2, e3⟩ := chunk_facts h4 hf rest
    show crcDec (chunk ++ rest) pos = _
    rw [crcDec_ok pos (by simp; omega) (by rw [e1, hn]; simp; omega) (by rw [e1, hn]; exact h32) (by rw [e1, hn]; exact hf0), e1, hn, e3, e2]

theorem Frames.cipherFrames {content : Bytes} {fs : List Bytes} (h : Frames content fs) :
    ∀ fuel, content.length ≤ fuel → Mmkv.cipherFrames fuel content = some fs := by
  induction h with
  | nil => intro fuel _; cases fuel <;> rfl
  | @cons chunk content f fs h4 hn hf h32 tail ih =>
    intro fuel hl
    obtain ⟨e1, e2, e3⟩ := chunk_facts h4 hf content
    cases hcc : chunk ++ content with
    | nil => have := congrArg List.length hcc; rw [List.length_append] at this; simp only [List.length_nil] at this; omega
    | cons b bs =>
      cases fuel with
      | zero => rw [hcc] at hl; simp at hl
      | succ fuel =>
        unfold Mmkv.cipherFrames
        rw [← hcc]
        simp only [e1, hn]
        rw [if_neg (by rw [List.length_append]; omega), e3, ← e2, List.drop_left' rfl, ih fuel (by rw [List.length_append] at hl; omega)]
        rfl

theorem Frames.texts {file content : Bytes} {fs : List Bytes} (hh : Holds file content) (h : Frames content fs) :
    cipherTexts file = some fs := by
  have hb := hh.body
  unfold cipherTexts
  rw [hh.header]
  simp only []
  have := hh.len
  rw [List.drop_take, Nat.add_sub_cancel] at hb
  rw [if_neg (by omega), hb]
  exact h.cipherFrames _ (Nat.le_refl _)

/-- What opens is framed. -/
theorem open_framed {ι : Type} {codecs : ι → Codec} {i : ι} {okB : Buffer → Prop} {posOk : Nat → Prop} {recLen : Buffer → Nat}
    (hc : LawfulCodec (codecs i) okB posOk recLen) {page : Nat} {file : Bytes} {s : Inst ι}
    (h : openAt codecs i page file = some s) :
    ∃ content items, Holds (configNew page file) content ∧ Framed (codecs i) 0 content items ∧ view s.kv = view (intoMap items).1 := by
  unfold openAt at h
  split at h
  · cases h
  rename_i o ho
  unfold openStore at ho
  simp only [] at ho
  split at ho
  · cases ho
  rename_i hne
  split at ho
  · cases ho
  rename_i items hi
  obtain ⟨hu, content, hh, hf⟩ := readItems_inv hc rfl hi
  refine ⟨content, items, hh, hf, ?_⟩
  injection h with h
  injection ho with ho
  subst h ho
  rfl

/-- What is framed opens. -/
theorem framed_open {ι : Type} {codecs : ι → Codec} {i : ι} {page : Nat} {file content : Bytes} {items : List (Option Buffer)}
    (hh : Holds (configNew page file) content) (hf : Framed (codecs i) 0 content items) :
    ∃ s, openAt codecs i page file = some s ∧ s.kv = (intoMap items).1 := by
  have hrd : ({ file := configNew page file, mmLen := (configNew page file).length, page := page, position := 0, needTrim := false } : WState).readItems
      (codecs i) = some items :=
    readItems_eq (c := codecs i) (s := ⟨configNew page file, (configNew page file).length, page, items.length, false, 8, none, []⟩)
      ⟨rfl, rfl, hh, hf, rfl⟩
  have hne : ¬ (configNew page file).length = 0 := by have := hh.len; omega
  unfold openAt openStore
  simp only [hrd]
  split
  · rename_i hx
    simp only [hne, if_false] at hx
    cases hx
  · rename_i o hx
    simp only [hne, if_false] at hx
    injection hx with hx
    subst hx
    exact ⟨_, rfl, rfl⟩

theorem run_source {ms : List Mutation} {S : Store} {k : String} {e : Entry} (h : S.run ms k = some e) :
    S k = some e ∨ .put k e ∈ ms := by
  induction ms generalizing S with
  | nil => exact .inl h
  | cons m ms ih =>
    rcases ih (S := S.apply m) h with h1 | h1
    · cases m with
      | put k' e' =>
        simp only [Store.apply] at h1
        split at h1
        · injection h1 with h1; subst h1; rename_i hk; subst hk; exact .inr List.mem_cons_self
        · exact .inl h1
      | delete k' =>
        simp only [Store.apply] at h1
        split at h1
        · cases h1
        · exact .inl h1
      | clear => simp [Store.apply, Store.empty] at h1
    · exact .inr (List.mem_cons_of_mem _ h1)

/-- What is shown comes from a record. -/
theorem shown_source {items : List (Option Buffer)} {k : String} {e : Entry} (h : view (intoMap items).1 k = some e) :
    some ⟨k, e.token, e.bytes⟩ ∈ items := by
  rw [view_intoMap] at h
  rcases run_source h with h | h
  · simp [Store.empty] at h
  · obtain ⟨o, ho, hm⟩ := List.mem_filterMap.1 h
    cases o with
    | none => simp at hm
    | some b =>
      simp only [Option.map_some, Option.some.injEq, Buffer.mutation] at hm
      split at hm
      · cases hm
      · injection hm with h1 h2
        subst h1 h2
        exact ho

theorem configNew_of_ne {page : Nat} {file : Bytes} (h : file ≠ []) : configNew page file = file := by
  have : file.length ≠ 0 := by simpa using h
  simp [configNew, this]

end Switch

open Switch

/-- **C72**, encryption switched on.  A directory whose file opens without the `encryption` feature and shows `S0` opens with the
feature, under any well-formed key and whatever the nonce file holds; whatever is shown then is in a record that authenticates (so
nothing, if none does); and doing anything but mutations leaves the data file byte for byte as it was, so that without the feature
it shows `S0` again. -/
theorem C72_switched_on (C : Cipher) {page : Nat} {file : Bytes} (hne : file ≠ []) {s : Inst Unit} {S0 : Store}
    (hplain : openAt plain () page file = some s) (hS0 : s.Shows S0) {key : String} {k rand : Bytes} {nonceFile : Option Bytes}
    (hk : decodeKey key = some k) :
    ∃ recs s' S', cipherTexts file = some recs ∧ openEnc C page key rand ⟨file, nonceFile⟩ = some s' ∧ s'.Shows S' ∧
      (∀ name e, S' name = some e → ∃ n ct msg, recs[n]? = some ct ∧ C.decrypt k (initNonce nonceFile rand) n ct = some msg ∧
        kvFromBytes msg = some ⟨name, e.token, e.bytes⟩) ∧
      (NoneAuthentic C k (initNonce nonceFile rand) file → S' = Store.empty) ∧
      ∀ es s'' rs, run (encrypted C) s' es = some (s'', rs) → calls es = [] →
        s''.disk = file ∧ ∃ s2, openAt plain () page s''.disk = some s2 ∧ s2.Shows S0 := by
  obtain ⟨content, items, hh, hf, _⟩ := open_framed (codecs := plain) (i := ()) crc_lawful hplain
  obtain ⟨fs, h1, _, _⟩ := Frames.of_crc hf
  have ha := h1.to_aead ⟨C, k, initNonce nonceFile rand⟩ 0
  obtain ⟨s', ho, hkv⟩ := framed_open (codecs := encrypted C) (i := (k, initNonce nonceFile rand)) hh ha
  have htexts : cipherTexts file = some fs := by
    have := h1.texts hh
    rwa [configNew_of_ne hne] at this
  have hsrc : ∀ name e, view s'.kv name = some e → ∃ n ct msg, fs[n]? = some ct ∧ C.decrypt k (initNonce nonceFile rand) n ct = some msg ∧
        kvFromBytes msg = some ⟨name, e.token, e.bytes⟩ := by
    intro name e he
    rw [hkv] at he
    have hm := shown_source he
    obtain ⟨n, hn⟩ := List.mem_iff_getElem?.1 hm
    rw [List.getElem?_mapIdx] at hn
    cases hfn : fs[n]? with
    | none => rw [hfn] at hn; cases hn
    | some ct =>
      rw [hfn] at hn
      simp only [Option.map_some, Nat.zero_add, Option.some.injEq, decodeCt] at hn
      split at hn
      · rename_i msg hd
        simp only [Stream.decrypt] at hd
        split at hd
        · cases hd
        · exact ⟨n, ct, msg, hfn, hd, hn⟩
      · cases hn
  refine ⟨fs, s', view s'.kv, htexts, by rw [openEnc_eq hk]; exact ho, shows_of_view ho rfl, hsrc, ?_, ?_⟩
  · intro hno
    funext name
    cases hv : view s'.kv name with
    | none => rfl
    | some e =>
      obtain ⟨n, ct, msg, a, b, _⟩ := hsrc name e hv
      rw [hno fs htexts n ct a] at b
      cases b
  · intro es s'' rs hrun hcalls
    have hd := C22_open_close ho hrun hcalls
    rw [if_neg hne] at hd
    exact ⟨hd, s, by rw [hd]; exact hplain, hS0⟩

/-- **C72**, encryption switched off.  An encrypted directory that shows `S0` under its key, and whose records are not empty, opens
without the feature; whatever is shown then is in a record that passes the check sum; and doing anything but mutations leaves the data
file byte for byte as it was (the nonce file is not touched by this build at all), so that with the key it shows `S0` again. -/
theorem C72_switched_off (C : Cipher) {page : Nat} {d : EncDir} (hne : d.file ≠ []) {key : String} {rand : Bytes}
    {s : Inst (Bytes × Bytes)} {S0 : Store} (henc : openEnc C page key rand d = some s) (hS0 : s.Shows S0)
    (hfull : ∀ recs, cipherTexts d.file = some recs → [] ∉ recs) :
    ∃ recs s' S', cipherTexts d.file = some recs ∧ openAt plain () page d.file = some s' ∧ s'.Shows S' ∧
      (∀ name e, S' name = some e → ∃ msg, msg ++ [crc8 msg] ∈ recs ∧ kvFromBytes msg = some ⟨name, e.token, e.bytes⟩) ∧
      ((∀ r ∈ recs, ∀ msg, r ≠ msg ++ [crc8 msg]) → S' = Store.empty) ∧
      ∀ es s'' rs, run plain s' es = some (s'', rs) → calls es = [] →
        s''.disk = d.file ∧ ∃ s2, openEnc C page key rand ⟨s''.disk, d.nonceFile⟩ = some s2 ∧ s2.Shows S0 := by
  obtain ⟨i, hi⟩ : ∃ i, openAt (encrypted C) i page d.file = some s := by
    unfold openEnc at henc
    split at henc
    · cases henc
    · exact ⟨_, henc⟩
  obtain ⟨content, items, hh, hf, _⟩ := open_framed (codecs := encrypted C) (i := i) (aead_lawful ⟨C, i.1, i.2⟩) hi
  obtain ⟨fs, h1, _⟩ := Frames.of_aead hf
  have htexts : cipherTexts d.file = some fs := by
    have := h1.texts hh
    rwa [configNew_of_ne hne] at this
  have hfs : ∀ f ∈ fs, f ≠ [] := by
    intro f hf hf0
    subst hf0
    exact hfull fs htexts hf
  obtain ⟨s', ho, hkv⟩ := framed_open (codecs := plain) (i := ()) hh (h1.to_crc hfs 0)
  have hsrc : ∀ name e, view s'.kv name = some e → ∃ msg, msg ++ [crc8 msg] ∈ fs ∧ kvFromBytes msg = some ⟨name, e.token, e.bytes⟩ := by
    intro name e he
    rw [hkv] at he
    obtain ⟨f, hf, hd⟩ := List.mem_map.1 (shown_source he)
    unfold decodeFrame at hd
    split at hd
    · rename_i hcrc
      refine ⟨_, ?_, hd⟩
      have hpos : 0 < f.length := List.length_pos_iff.2 (hfs f hf)
      have : f.take (f.length - 1) ++ [crc8 (f.take (f.length - 1))] = f := by
        rw [hcrc]
        have h2 : f.getD (f.length - 1) 0 = f[f.length - 1] := by
          rw [List.getD_eq_getElem?_getD, List.getElem?_eq_getElem (by omega)]; rfl
        rw [h2, List.take_append_getElem (by omega), Nat.sub_add_cancel hpos, List.take_length]
      rw [this]
      exact hf
    · cases hd
  refine ⟨fs, s', view s'.kv, htexts, ho, shows_of_view ho rfl, hsrc, ?_, ?_⟩
  · intro hno
    funext name
    cases hv : view s'.kv name with
    | none => rfl
    | some e =>
      obtain ⟨msg, a, _⟩ := hsrc name e hv
      exact absurd rfl (hno _ a msg)
  · intro es s'' rs hrun hcalls
    have hd := C22_open_close ho hrun hcalls
    rw [if_neg hne] at hd
    exact ⟨hd, s, by rw [hd]; exact henc, hS0⟩

/-- The last hypothesis of `C72_switched_off` holds of every directory left by sessions with one key, if the cipher does not decrypt an
empty ciphertext (it has an eight-byte tag). -/
theorem C72_records_not_empty (C : Cipher) (hC : ∀ k n c, C.decrypt k n c [] = none) {page : Nat} (h8 : 8 ≤ page) (h32 : page < 2 ^ 32)
    {key : String} {k : Bytes} (hk : decodeKey key = some k) {xs : List EncSession} {rss : List (List (Out Unit))} {d : EncDir}
    (hl : EncLife C page EncDir.fresh xs rss d) (hs : SameKey key k page xs)
    (hroom : page * encCallCount xs + 8 < 2 ^ 64) (hctr : encCallCount xs < 2 ^ 32 - 1) :
    ∀ recs, cipherTexts d.file = some recs → [] ∉ recs := by
  obtain ⟨ys, g', hl', hg', hc, hf, _⟩ := life_of_encLife hk hl hs (g := Dir.fresh) ⟨rfl, by simp [Dir.fresh]⟩
  have hcc := callCount_eq hc
  obtain ⟨_, S, _, hg⟩ := life_survives (E := encEnv C page h8 False) (K := 0) hl' (goodDir_fresh _ 0)
    (fun y hy e he => (hf y hy e he).ok h32) (by
      rw [Nat.zero_add, hcc]
      exact ⟨hroom, by simpa [encEnv, aeadPos, counterMax] using hctr⟩)
  have hi : ∀ j, g'.idx = some j → (k, initNonce d.nonceFile []) = j := by
    intro j hj
    obtain ⟨j1, j2, j3⟩ := hg'.2 j hj
    rw [j3]
    simp only [initNonce, j2, if_true]
    rw [← j1]
  have hgf := hg _ hi
  rw [hg'.1] at hgf
  intro recs hr hm
  generalize d.file = file at hgf hr
  cases hgf with
  | empty => simp [cipherTexts] at hr
  | held hh hf hb hsz hkk hsl hn =>
    obtain ⟨fs, h1, h2⟩ := Frames.of_aead (S := ⟨C, k, initNonce d.nonceFile []⟩) hf
    rw [h1.texts hh] at hr
    injection hr with hr
    subst hr
    refine hn ?_
    obtain ⟨n, hn'⟩ := List.mem_iff_getElem?.1 hm
    rw [h2]
    refine List.mem_iff_getElem?.2 ⟨n, ?_⟩
    rw [List.getElem?_mapIdx, hn']
    have : decodeCt ⟨C, k, initNonce d.nonceFile []⟩ n [] = none := by
      simp only [decodeCt, Stream.decrypt]
      split
      · rename_i h
        split at h
        · cases h
        · rw [hC] at h; cases h
      · rfl
    simp [this]

/-- The hypotheses of `C72_switched_off` and `C72_records_not_empty` are met by the directory `demoEnc` leaves after its first session:
it shows two keys with the key, none of its two records passes the check sum, and the toy cipher rejects an empty ciphertext. -/
example : ∃ d s recs, openEnc toy 80 testKey nonce1 d = some s ∧ d.file ≠ [] ∧ s.kv.length = 2 ∧ cipherTexts d.file = some recs ∧ recs.length = 2 ∧
    [] ∉ recs ∧ ∀ r ∈ recs, ∀ msg, r ≠ msg ++ [crc8 msg] := by
  have h : ((encLifeRun toy 80 EncDir.fresh (demoEnc.take 1)).map fun p =>
      ((openEnc toy 80 testKey nonce1 p.2).map fun s => decide (s.kv.length = 2),
        decide (p.2.file ≠ []),
        (cipherTexts p.2.file).map fun cts => decide (cts.length = 2) && cts.all fun r => !r.isEmpty && crc8 r.dropLast != r.getLastD 0)) =
      some (some true, true, some true) := by decide +kernel
  cases hr : encLifeRun toy 80 EncDir.fresh (demoEnc.take 1) with
  | none => simp [hr] at h
  | some p =>
    rw [hr] at h
    simp only [Option.map_some, Option.some.injEq, Prod.mk.injEq] at h
    obtain ⟨h1, h2, h3⟩ := h
    cases ho : openEnc toy 80 testKey nonce1 p.2 with
    | none => simp [ho] at h1
    | some s =>
      cases hc : cipherTexts p.2.file with
      | none => simp [hc] at h3
      | some recs =>
        rw [hc] at h3
        simp only [Option.map_some, Option.some.injEq, Bool.and_eq_true, decide_eq_true_eq, List.all_eq_true, Bool.not_eq_true',
          List.isEmpty_eq_false_iff, bne_iff_ne] at h3
        refine ⟨p.2, s, recs, ho, by simpa using h2, by simpa [ho] using h1, hc, h3.1, fun hm => (h3.2 _ hm).1 rfl, ?_⟩
        intro r hr msg he
        subst he
        exact (h3.2 _ hr).2 (by simp)

example (k n : Bytes) (c : Nat) : toy.decrypt k n c [] = none := by
  simp [toy, toyTag]
  intro h
  have := congrArg List.length h
  simp at this

/-- A file of two records, written without encryption. -/
def plainTwo : Bytes :=
  ((Inst.openAt plain () 80 []).bind fun s =>
    (run plain s ([.put "a" 0 [0, 0, 0, 1], .api (), .api ()] ++ List.replicate 4 (.io idOrder) ++ [.put "b" 1 [104, 105], .api (), .api ()] ++
      List.replicate 4 (.io idOrder))).map fun p => p.1.disk).getD []

/-- The hypotheses of `C72_switched_on` are met by it: it shows two keys without encryption, and with it nothing authenticates. -/
example : plainTwo ≠ [] ∧ (∃ s, openAt plain () 80 plainTwo = some s ∧ s.kv.length = 2) ∧ (cipherTexts plainTwo).map List.length = some 2 ∧
    NoneAuthentic toy testKeyBytes (initNonce none nonce1) plainTwo := by
  have h : (decide (plainTwo ≠ []) && ((openAt plain () 80 plainTwo).map fun s => s.kv.length) == some 2 &&
      (cipherTexts plainTwo).map List.length == some 2 && ((cipherTexts plainTwo).map fun cts => (List.range cts.length).all fun n =>
          (toy.decrypt testKeyBytes (initNonce none nonce1) n (cts.getD n [])).isNone) == some true) = true := by decide +kernel
  simp only [Bool.and_eq_true, beq_iff_eq, decide_eq_true_eq] at h
  obtain ⟨⟨⟨h1, h2⟩, h3⟩, h4⟩ := h
  refine ⟨h1, ?_, h3, ?_⟩
  · cases ho : openAt plain () 80 plainTwo with
    | none => simp [ho] at h2
    | some s => exact ⟨s, rfl, by simpa [ho] using h2⟩
  · intro cts hc n ct hn
    rw [hc] at h4
    simp only [Option.map_some, Option.some.injEq, List.all_eq_true, List.mem_range] at h4
    have := h4 n (List.getElem?_eq_some_iff.1 hn).1
    rw [List.getD_eq_getElem?_getD, hn] at this
    simpa using this

end Mmkv
