import Verif.Props.Size
import Verif.Lemmas.Crash
/-!
# Death of the process inside a background write: C11, C12

`Crash file effs f` (Verif/Model/Crash.lean): the process died while making the stores and resizes `effs` on `file`, and
left `f`.  C10 (Props/Durability.lean) is about deaths between two writes.
-/

namespace Mmkv
open Spec Inst

/-! ### The effects are what a write does -/

/-- The effects of a write, applied one after the other, are what it does to the file - for every write, whether it
completes or panics.  So the crash points below are the crash points of the write. -/
theorem C11_effects_are_the_write (order : Order) (b : Buffer) (dup : Bool) (s : WState) :
    (s.effects crcCodec order b dup).foldl Eff.apply s.file = (s.write crcCodec order b dup).state.file :=
  effects_apply order b dup s

/-! ### C11 -/

/-- The checksum byte of a record matches its message (src/core/crc.rs:31-36). -/
def ChecksumOk (t : Bytes) : Prop := crc8 ((t.drop 4).take (t.length - 5)) = t.getD (t.length - 1) 0

instance (t : Bytes) : Decidable (ChecksumOk t) := inferInstanceAs (Decidable (_ = _))

theorem crash_nil {f g : Bytes} (h : Crash f [] g) : g = f := by
  cases h; rfl

/-- What a death inside an append leaves. -/
theorem crash_append {H0 H1 old tail r f : Bytes} (h0 : H0.length = 8) (h1 : H1.length = 8) (hr : r.length ≤ tail.length)
    (h : Crash (H0 ++ old ++ tail) [.store 0 H1, .store (old.length + 8) r] f) :
    ∃ h' r', h'.length = 8 ∧ r'.length = r.length ∧ f = h' ++ old ++ r' ++ tail.drop r.length ∧
      ((r' = tail.take r.length) ∨ h' = H1) := by
  have hsp0 : ∀ x : Bytes, x.length = 8 → splice (H0 ++ old ++ tail) 0 x = x ++ old ++ tail := by
    intro x hx
    have := splice_mid [] H0 (old ++ tail) x (by omega)
    simpa using this
  have hsp1 : ∀ x : Bytes, x.length = r.length → splice (H1 ++ old ++ tail) (old.length + 8) x = H1 ++ old ++ x ++ tail.drop r.length := by
    intro x hx
    have := splice_mid (H1 ++ old) (tail.take r.length) (tail.drop r.length) x (by simp; omega)
    rw [show (H1 ++ old).length = old.length + 8 by simp; omega] at this
    rw [List.append_assoc (H1 ++ old), List.take_append_drop] at this
    exact this
  have htd : ∀ x : Bytes, x ++ old ++ tail = x ++ old ++ tail.take r.length ++ tail.drop r.length := by
    intro x; rw [List.append_assoc (x ++ old), List.take_append_drop]
  have hlt : (tail.take r.length).length = r.length := by simp; omega
  cases h with
  | here => exact ⟨H0, tail.take r.length, h0, hlt, htd _, .inl rfl⟩
  | torn _ _ _ bs' _ hlen hmix =>
    rw [hsp0 bs' (by omega)]
    exact ⟨bs', _, by omega, hlt, htd _, .inl rfl⟩
  | later _ _ _ _ h =>
    simp only [Eff.apply] at h
    rw [hsp0 H1 h1] at h
    cases h with
    | here => exact ⟨H1, tail.take r.length, h1, hlt, htd _, .inr rfl⟩
    | torn _ _ _ bs' _ hlen hmix =>
      rw [hsp1 bs' hlen]
      exact ⟨H1, bs', h1, hlen, rfl, .inr rfl⟩
    | later _ _ _ _ h =>
      rw [crash_nil h]
      simp only [Eff.apply]
      rw [hsp1 r rfl]
      exact ⟨H1, r, h1, rfl, rfl, .inr rfl⟩

/-- A record whose length field is right but whose checksum is not reads as nothing. -/
theorem framed_torn {t : Bytes} (h5 : 5 ≤ t.length) (h32 : t.length < 2 ^ 32) (hl : t.take 4 = beBytes 4 (t.length - 4))
    (hc : ¬ ChecksumOk t) (pos : Nat) : Framed crcCodec pos t [none] := by
  have hd : (t.drop 4).length = t.length - 4 := by simp
  have hsplit : t = beBytes 4 (((t.drop 4).take (t.length - 5)).length + 1) ++ (t.drop 4).take (t.length - 5) ++ [t.getD (t.length - 1) 0] := by
    have h1 : ((t.drop 4).take (t.length - 5)).length = t.length - 5 := by simp; omega
    have h2 : (t.drop 4).drop (t.length - 5) = [t.getD (t.length - 1) 0] := by
      rw [List.drop_drop, show 4 + (t.length - 5) = t.length - 1 by omega]
      rw [List.drop_eq_getElem_cons (by omega), List.drop_of_length_le (by omega), List.getD_eq_getElem?_getD, List.getElem?_eq_getElem (by omega)]
      rfl
    rw [h1, show t.length - 5 + 1 = t.length - 4 by omega, ← hl, List.append_assoc, ← h2, List.take_append_drop, List.take_append_drop]
  refine Framed.single (by intro h; rw [h] at h5; simp at h5) fun rest => ?_
  have h1 : ((t.drop 4).take (t.length - 5)).length = t.length - 5 := by simp; omega
  have := crcDec_frame ((t.drop 4).take (t.length - 5)) (t.getD (t.length - 1) 0) rest pos (by rw [h1]; omega)
  rw [← hsplit, h1, show t.length - 5 + 5 = t.length by omega] at this
  unfold ChecksumOk at hc
  rw [if_neg hc] at this
  exact this

/-- Room for the record of `m` without a compaction: it fits, or no compaction is due and one more page is enough. -/
def Appends (s : WState) (dup : Bool) (m : Mutation) : Prop :=
  8 + header s.file + (recordOf m).length ≤ s.file.length ∨
  ((s.needTrim || dup) = false ∧ 8 + header s.file + (recordOf m).length ≤ s.file.length + s.page)

theorem enc_recordOf {m : Mutation} (hm : Recorded m) (pos : Nat) : crcCodec.enc (bufOf m) pos = some (recordOf m) := by
  obtain ⟨h1, _, _⟩ := hm.rec
  rw [h1]
  show crcEnc _ pos = _
  simp [crcEnc, record]

/-- What a death inside an append leaves: the file as it was, or the old records untouched between some eight bytes of
header and some bytes in the place of the new record. -/
theorem crash_cases {s : WState} {items : List (Option Buffer)} {content : Bytes} (hv : Valid crcCodec s content items)
    (hq : s.quota = none) {m : Mutation} (hm : Recorded m) (order : Order) (dup : Bool) (hroom : Appends s dup m) {f : Bytes}
    (hcrash : Crash s.file (s.effects crcCodec order (bufOf m) dup) f) :
    f = s.file ∨ ∃ h' r' rest, h'.length = 8 ∧ r'.length = (recordOf m).length ∧ f = h' ++ content ++ r' ++ rest := by
  have henc := enc_recordOf hm items.length
  have hhd := hv.holds.header
  unfold Appends header at hroom
  rw [hhd] at hroom
  obtain ⟨_, tail, hfile⟩ := hv.holds
  by_cases hfit : content.length + 8 + (recordOf m).length ≤ s.file.length
  · rw [effects_fit order (bufOf m) dup hv henc hfit, hfile] at hcrash
    rw [hfile] at hfit
    obtain ⟨h', r', h1, h2, h3, _⟩ := crash_append (by simp) (by simp) (by simp at hfit; omega) hcrash
    exact .inr ⟨h', r', _, h1, h2, h3⟩
  · obtain ⟨hnt, hle⟩ : (s.needTrim || dup) = false ∧ 8 + content.length + (recordOf m).length ≤ s.file.length + s.page := by
      rcases hroom with hr | hr
      · omega
      · exact hr
    rw [effects_expand order (bufOf m) dup hv hq hnt henc (by omega) (by omega)] at hcrash
    cases hcrash with
    | here => exact .inl rfl
    | later _ _ _ _ hcrash =>
      have happ : Eff.apply s.file (.setLen (s.file.length + s.page)) = beBytes 8 content.length ++ content ++ (tail ++ zeros s.page) := by
        simp only [Eff.apply]
        rw [List.take_of_length_le (by omega), Nat.add_sub_cancel_left]
        conv => lhs; rw [hfile]
        simp
      rw [happ] at hcrash
      have hlen : s.file.length = 8 + content.length + tail.length := by rw [hfile]; simp; omega
      obtain ⟨h', r', h1, h2, h3, _⟩ := crash_append (by simp) (by simp) (by simp [zeros]; omega) hcrash
      exact .inr ⟨h', r', _, h1, h2, h3⟩

/-- **C11**, the part that always holds: whenever the process dies inside an append, every byte of the records already
stored is untouched. -/
theorem C11_old_records_untouched {s : WState} {items : List (Option Buffer)} (h : AtRest s items) {m : Mutation}
    (hm : Recorded m) (order : Order) (dup : Bool) (hroom : Appends s dup m) {f : Bytes}
    (hcrash : Crash s.file (s.effects crcCodec order (bufOf m) dup) f) :
    (f.drop 8).take (header s.file) = (s.file.drop 8).take (header s.file) := by
  obtain ⟨content, hv, hc⟩ := h.valid
  rcases crash_cases hv h.disk hm order dup hroom hcrash with rfl | ⟨h', r', rest, h1, h2, rfl⟩
  · rfl
  · obtain ⟨_, tail, hfile⟩ := hv.holds
    rw [hc]
    conv => rhs; rw [hfile]
    rw [List.append_assoc, List.append_assoc, List.drop_left' h1, List.take_left' rfl,
      List.append_assoc, List.drop_left' (by simp), List.take_left' rfl]

/-- **C11**, what is true: if the process dies at any instant of an append, reopening shows the map before or after it -
unless it died inside the eight bytes of the length header, or after the header with the new record's length field not
completely stored, or with a checksum that happens to match the incomplete message.
Missing from C11: those three cases; `C11_refuted` and `C11_refuted_wrong_value` show that they are real. -/
theorem C11_partial {s : WState} {items : List (Option Buffer)} (h : AtRest s items) {m : Mutation}
    (hm : Recorded m) (hsz : header s.file + (recordOf m).length + 8 < 2 ^ 64) (order : Order) (dup : Bool)
    (hroom : Appends s dup m) {S : Store} (hS : FileShows s.file S) {f : Bytes}
    (hcrash : Crash s.file (s.effects crcCodec order (bufOf m) dup) f) :
    FileShows f S ∨ FileShows f (S.apply m) ∨
    (header f ≠ header s.file ∧ header f ≠ header s.file + (recordOf m).length) ∨
    (header f = header s.file + (recordOf m).length ∧
      ∃ t, t = (f.drop (8 + header s.file)).take (recordOf m).length ∧ t ≠ recordOf m ∧
        (t.take 4 ≠ (recordOf m).take 4 ∨ ChecksumOk t)) := by
  obtain ⟨content, hv, hc⟩ := h.valid
  have hSS := fileShows_unique h.fileShows hS
  subst hSS
  rcases crash_cases hv h.disk hm order dup hroom hcrash with rfl | ⟨h', r', rest, h1, h2, rfl⟩
  · exact .inl hS
  rw [hc] at hsz ⊢
  have hhead : header (h' ++ content ++ r' ++ rest) = beVal h' := by
    unfold header
    rw [List.append_assoc, List.append_assoc, List.take_left' h1]
  have hbe : beBytes 8 (beVal h') = h' := by
    have := beBytes_beVal h'; rwa [h1] at this
  rw [hhead]
  by_cases e0 : beVal h' = content.length
  · left
    have hh : Holds (h' ++ content ++ r' ++ rest) content :=
      ⟨by omega, r' ++ rest, by rw [← e0, hbe]; simp⟩
    exact fun page => open_framed hh hv.framed
  by_cases e1 : beVal h' = content.length + (recordOf m).length
  · have hh : Holds (h' ++ content ++ r' ++ rest) (content ++ r') :=
      ⟨by simp; omega, rest, by rw [List.length_append, h2, ← e1, hbe]; simp⟩
    by_cases er : r' = recordOf m
    · right; left
      subst er
      have hf := hv.framed.append (framed_record hm (0 + items.length))
      have hmu : Store.empty.run (mutations (items ++ [some (bufOf m)])) = (Store.empty.run (mutations items)).apply m := by
        have := hm.rec.2.1
        simp [mutations, Store.run, this]
      intro page
      rw [← hmu]
      exact open_framed hh hf
    · by_cases e4 : r'.take 4 = (recordOf m).take 4
      · by_cases hck : ChecksumOk r'
        · refine .inr (.inr (.inr ⟨e1, r', ?_, er, .inr hck⟩))
          rw [List.append_assoc, List.drop_left' (by simp; omega), List.take_left' h2]
        · left
          obtain ⟨hr1, _, hr3⟩ := hm.rec
          have hlen : (record (bufOf m)).length = (kvToBytes (bufOf m)).length + 5 := by simp [record]; omega
          have h4 : r'.take 4 = beBytes 4 (r'.length - 4) := by
            rw [e4, h2, hr1, hlen, show (kvToBytes (bufOf m)).length + 5 - 4 = (kvToBytes (bufOf m)).length + 1 by omega]
            exact take4_be _ _
          have hf := hv.framed.append (framed_torn (by rw [h2, hr1]; omega) (by rw [h2, hr1]; exact hr3) h4 hck (0 + items.length))
          have hmu : Store.empty.run (mutations (items ++ [none])) = Store.empty.run (mutations items) := by
            simp [mutations]
          intro page
          rw [← hmu]
          exact open_framed hh hf
      · refine .inr (.inr (.inr ⟨e1, r', ?_, er, .inl e4⟩))
        rw [List.append_assoc, List.drop_left' (by simp; omega), List.take_left' h2]
  · exact .inr (.inr (.inl ⟨e0, e1⟩))

/-- Reading whole records and then something more. -/
theorem Framed.iter_append {c : Codec} {pos content items} (h : Framed c pos content items) (rest : Bytes) :
    ∀ fuel, content.length + rest.length ≤ fuel → ∃ fuel', rest.length ≤ fuel' ∧
      iterLoop c fuel pos (content ++ rest) = (iterLoop c fuel' (pos + items.length) rest).map (items ++ ·) := by
  induction h with
  | nil pos => intro fuel hf; exact ⟨fuel, by simpa using hf, by simp⟩
  | cons pos chunk content ob items hne hdec _ ih =>
    intro fuel hf
    have hpos : 0 < chunk.length := List.length_pos_iff.2 hne
    simp only [List.length_append] at hf
    cases fuel with
    | zero => omega
    | succ fuel =>
      obtain ⟨fuel', h1, h2⟩ := ih fuel (by omega)
      refine ⟨fuel', h1, ?_⟩
      cases hcc : chunk ++ content ++ rest with
      | nil => simp [hne] at hcc
      | cons b bs =>
        have hstep : iterLoop c (fuel + 1) pos (b :: bs) = (iterLoop c fuel (pos + 1) (content ++ rest)).map (ob :: ·) := by
          conv => lhs; unfold iterLoop
          rw [← hcc, List.append_assoc, hdec (content ++ rest)]
          simp only [List.drop_left]
        rw [hstep, h2, List.length_cons, show pos + 1 + items.length = pos + (items.length + 1) by omega]
        generalize iterLoop c fuel' (pos + (items.length + 1)) rest = o
        cases o <;> rfl

theorem openAt_of_reads {file : Bytes} (hne : file.length ≠ 0) (hr : fileRecords crcCodec file = none) (page : Nat) :
    openAt plain () page file = none := by
  have hr' : WState.readItems { file := file, mmLen := file.length, page := page, position := 0, needTrim := false } crcCodec = none := hr
  unfold openAt openStore plain
  simp only [configNew, hne, if_false, hr']

/-- A file whose length header covers four more zero bytes (or more) than whole records cannot be opened. -/
theorem openAt_zeros {content tail : Bytes} {n : Nat} {items : List (Option Buffer)} (hf : Framed crcCodec 0 content items) (hn : 4 ≤ n) (hsz : n + content.length + 8 < 2 ^ 64)
    (hlen : n ≤ tail.length) (ht4 : tail.take 4 = zeros 4) (page : Nat) : openAt plain () page (beBytes 8 (n + content.length) ++ content ++ tail) = none := by
  apply openAt_of_reads (by simp)
  unfold fileRecords WState.readItems WState.writeOffset WState.lenOffset
  have htake : (beBytes 8 (n + content.length) ++ content ++ tail).take 8 = beBytes 8 (n + content.length) := by
    rw [List.append_assoc]; exact List.take_left' (by simp)
  rw [if_neg (by simp), if_neg (by simp)]
  simp only [htake]
  rw [beVal_beBytes _ _ (by omega), if_pos (by omega)]
  simp only []
  rw [if_neg (by omega), if_neg (by simp; omega)]
  have hbody : ((beBytes 8 (n + content.length) ++ content ++ tail).take (n + content.length + 8)).drop 8 =
      content ++ tail.take n := by
    rw [List.append_assoc, List.take_append, List.drop_append]
    simp only [beBytes_length]
    rw [List.take_of_length_le (l := beBytes 8 _) (by simp)]
    rw [List.drop_of_length_le (l := beBytes 8 _) (by simp), List.nil_append, beBytes_length]
    rw [show n + content.length + 8 - 8 = n + content.length by omega, Nat.sub_self, List.drop_zero,
      List.take_append, List.take_of_length_le (by omega), Nat.add_sub_cancel]
  rw [hbody]
  obtain ⟨fuel', hf1, hf2⟩ := hf.iter_append (tail.take n) _ (Nat.le_of_eq (List.length_append (as := content)).symm)
  rw [hf2]
  have hz : (tail.take n).take 4 = zeros 4 := by
    rw [List.take_take, Nat.min_eq_left (by omega)]; exact ht4
  have hzl : (tail.take n).length = n := by simp; omega
  generalize tail.take n = z at *
  have hdec : ∀ pos, crcCodec.dec z pos = .panic := by
    intro pos
    show crcDec z pos = .panic
    unfold crcDec
    rw [if_neg (by omega)]
    simp only [hz]
    rw [if_pos (by decide)]
  cases fuel' with
  | zero => omega
  | succ fuel' =>
    cases z with
    | nil => simp at hzl; omega
    | cons b bs =>
      unfold iterLoop
      rw [hdec]
      rfl

/-- **C11 is false**, in every state: if the process dies between the store of the length header and the store of the
record, and the room after the content is still zero (as a fresh page is), the directory cannot be opened any more. -/
theorem C11_refuted {s : WState} {items : List (Option Buffer)} (h : AtRest s items) {m : Mutation}
    (hm : Recorded m) (hsz : header s.file + (recordOf m).length + 8 < 2 ^ 64) (order : Order) (dup : Bool)
    (hfit : 8 + header s.file + (recordOf m).length ≤ s.file.length)
    (hzero : (s.file.drop (8 + header s.file)).take 4 = zeros 4) :
    ∃ f, Crash s.file (s.effects crcCodec order (bufOf m) dup) f ∧ ∀ page, openAt plain () page f = none := by
  obtain ⟨content, hv, hc⟩ := h.valid
  rw [hc] at hsz hfit hzero
  have henc := enc_recordOf hm items.length
  have heff := effects_fit order (bufOf m) dup hv henc (by omega)
  rw [heff]
  obtain ⟨_, tail, hfile⟩ := hv.holds
  have hlen : s.file.length = 8 + content.length + tail.length := by rw [hfile]; simp; omega
  have hrl : 5 ≤ (recordOf m).length := by
    rw [hm.rec.1]; simp [record]; omega
  refine ⟨_, .later _ _ _ _ (.here _ _), ?_⟩
  have hsp : Eff.apply s.file (.store 0 (beBytes 8 ((recordOf m).length + content.length))) =
      beBytes 8 ((recordOf m).length + content.length) ++ content ++ tail := by
    simp only [Eff.apply]
    rw [hfile]
    have := splice_mid [] (beBytes 8 content.length) (content ++ tail) (beBytes 8 ((recordOf m).length + content.length)) (by simp)
    simpa using this
  rw [hsp]
  have ht4 : tail.take 4 = zeros 4 := by
    rw [hfile, List.drop_left' (by simp)] at hzero
    exact hzero
  exact openAt_zeros hv.framed (by omega) (by omega) (by omega) ht4

/-- The hypotheses of C11 at `demoRest`: one more record fits, the room after the content is zero. -/
example : Recorded (.put "c" ⟨2, [1]⟩) ∧ Appends demoRest false (.put "c" ⟨2, [1]⟩) ∧
    (demoRest.file.drop (8 + header demoRest.file)).take 4 = zeros 4 ∧
    8 + header demoRest.file + (recordOf (.put "c" ⟨2, [1]⟩)).length ≤ demoRest.file.length := by
  refine ⟨⟨by decide, by decide +kernel⟩, ?_, by decide +kernel, by decide +kernel⟩
  unfold Appends
  exact .inl (by decide +kernel)

/-- The effects of the next step of the background thread. -/
def nextEffects (s s' : Inst Unit) : List Eff := s'.lp.cb.ws.log.drop s.lp.cb.ws.log.length

/-- **C11 is false**, end to end, and not only by a crash at the next open: on a fresh store the bytes `af 01 01 01` are
put at key `k` (and nothing else, ever).  If the process dies when all but the last three bytes of the record have been
stored, the store opens and shows `af 01 00 00` at `k`: a value nobody put. -/
theorem C11_refuted_wrong_value : ∃ s s' rs f i, fresh64 [.put "k" 6 [0xaf, 1, 1, 1], .api (), .api (), .io idOrder, .io idOrder] = some (s, rs) ∧
    rs = [.ok ()] ∧ step plain s (.io idOrder) = some (s', none) ∧ Crash s.disk (nextEffects s s') f ∧
    openAt plain () 64 f = some i ∧ i.getAs "k" 6 (Out.ok : Bytes → Out Bytes) = .ok [0xaf, 1, 0, 0] := by
  have h : passes (fresh64 [.put "k" 6 [0xaf, 1, 1, 1], .api (), .api (), .io idOrder, .io idOrder]) (fun s rs =>
      match step plain s (.io idOrder) with
      | some (s', none) =>
        decide (rs = [.ok ()] ∧ s.disk = zeros 64 ∧
          nextEffects s s' = [.store 0 (beBytes 8 16), .store 8 [0, 0, 0, 12, 10, 1, 107, 16, 6, 26, 4, 0xaf, 1, 1, 1, crc8 [10, 1, 107, 16, 6, 26, 4, 0xaf, 1, 1, 1]]])
      | _ => false) = true := by decide +kernel
  obtain ⟨s, rs, h1, h2⟩ := exists_of_passes h
  split at h2
  · rename_i s' hs
    simp only [decide_eq_true_eq] at h2
    obtain ⟨h2, h3, h4⟩ := h2
    have hopen : (match openAt plain () 64 (splice (splice (zeros 64) 0 (beBytes 8 16)) 8 [0, 0, 0, 12, 10, 1, 107, 16, 6, 26, 4, 0xaf, 1, 0, 0, 0]) with
      | some i => decide (i.getAs "k" 6 (Out.ok : Bytes → Out Bytes) = .ok [0xaf, 1, 0, 0])
      | none => false) = true := by decide +kernel
    split at hopen
    · rename_i i hi
      refine ⟨s, s', rs, _, i, h1, h2, hs, ?_, hi, by simpa using hopen⟩
      rw [h3, h4]
      refine .later _ _ _ _ (.torn _ _ _ _ _ (by decide) ?_)
      have hmix : ∀ i < 16, ([0, 0, 0, 12, 10, 1, 107, 16, 6, 26, 4, 0xaf, 1, 0, 0, 0] : Bytes)[i]? = ([0, 0, 0, 12, 10, 1, 107, 16, 6, 26, 4, 0xaf, 1, 1, 1, crc8 [10, 1, 107, 16, 6, 26, 4, 0xaf, 1, 1, 1]] : Bytes)[i]? ∨
          ([0, 0, 0, 12, 10, 1, 107, 16, 6, 26, 4, 0xaf, 1, 0, 0, 0] : Bytes)[i]? = (Eff.apply (zeros 64) (.store 0 (beBytes 8 16)))[8 + i]? := by decide +kernel
      intro i x hx
      by_cases hi : i < 16
      · rcases hmix i hi with h | h
        · left; rw [← h]; exact hx
        · right; rw [← h]; exact hx
      · rw [List.getElem?_eq_none (by simp; omega)] at hx; cases hx
    · cases hopen
  · cases h2

/-! ### C12 -/

/-- **C12 is false**, in every state: if the process dies right after the first store of a compaction, the store is empty
when it is opened again - everything is lost, whatever it held. -/
theorem C12_refuted {s : WState} {items : List (Option Buffer)} (h : AtRest s items) {m : Mutation}
    (hm : Recorded m) (order : Order) (dup : Bool)
    (hfull : s.file.length < 8 + header s.file + (recordOf m).length) (hdue : (s.needTrim || dup) = true) :
    ∃ f, Crash s.file (s.effects crcCodec order (bufOf m) dup) f ∧ FileShows f Store.empty := by
  obtain ⟨content, hv, hc⟩ := h.valid
  rw [hc] at hfull
  obtain ⟨s1, f1, f2, v1, _, _, hw⟩ := effects_trim order (bufOf m) dup hv hdue (enc_recordOf hm items.length) (by omega)
  obtain ⟨es, hes, _⟩ := logged_trimLoop (c := crcCodec) s.mmLen (order (mapStep (intoMap items).1 (some (bufOf m))).values) s1
  have heff : ∃ rest, s.effects crcCodec order (bufOf m) dup = .store 0 (beBytes 8 0) :: rest := by
    refine ⟨es, ?_⟩
    unfold WState.effects
    rw [hw]
    have : ((WState.trimLoop crcCodec s.mmLen (order (mapStep (intoMap items).1 (some (bufOf m))).values) s1).andThen
        fun s => .done { s with needTrim := false }).state.log = s.log ++ (.store 0 (beBytes 8 0) :: es) := by
      cases hr : WState.trimLoop crcCodec s.mmLen (order (mapStep (intoMap items).1 (some (bufOf m))).values) s1 with
      | done s2 => rw [hr] at hes; simp only [Run.andThen_done, Run.state_done] at hes ⊢; rw [hes, f2]; simp
      | panic s2 => rw [hr] at hes; simp only [Run.andThen_panic, Run.state_panic] at hes ⊢; rw [hes, f2]; simp
    rw [this, List.drop_left' rfl]
  obtain ⟨rest, heff⟩ := heff
  rw [heff]
  refine ⟨_, .later _ _ _ _ (.here _ _), ?_⟩
  have : Eff.apply s.file (.store 0 (beBytes 8 0)) = s1.file := f1.symm
  rw [this]
  exact fun page => open_framed (page := page) v1.holds v1.framed

/-- **C12**, what is true: if the process dies during a compaction that would complete, at any point between two effects
other than a length header and its record, reopening shows part of the new map: every key shown has the value it should
have, some may be missing.  Missing from C12: the keys not yet rewritten (`C12_refuted`), and deaths between header and
record, which can bring deleted keys back (`C12_refuted_resurrected`). -/
theorem C12_partial {s s' : WState} {items : List (Option Buffer)} (h : AtRest s items) {m : Mutation}
    (hm : Recorded m) (hsz : Sizes s items m) {order : Order} (ho : ∀ l, (order l).Perm l) (dup : Bool) {S : Store}
    (hS : FileShows s.file S)
    (hfull : s.file.length < 8 + header s.file + (recordOf m).length) (hdue : (s.needTrim || dup) = true)
    (hdone : WState.write crcCodec order (bufOf m) dup s = .done s')
    (k : Nat) (hk : k ≤ (s.effects crcCodec order (bufOf m) dup).length)
    (hnext : dataNext (s.effects crcCodec order (bufOf m) dup) k = false) :
    ∃ f S', Crash s.file (s.effects crcCodec order (bufOf m) dup) f ∧
      f = ((s.effects crcCodec order (bufOf m) dup).take k).foldl Eff.apply s.file ∧ FileShows f S' ∧
      (k = 0 → S' = S) ∧ (0 < k → ∀ key e, S' key = some e → (S.apply m) key = some e) ∧
      (k = (s.effects crcCodec order (bufOf m) dup).length → S' = S.apply m) := by
  obtain ⟨content, hv, hc⟩ := h.valid
  obtain ⟨b1, b2, b3⟩ := hm.buf
  obtain ⟨z1, z2, z3⟩ := hsz
  have hSS := fileShows_unique h.fileShows hS
  subst hSS
  have hfull' := hfull
  rw [hc] at hfull'
  obtain ⟨s1, f1, f2, v1, q1, _, hw⟩ := effects_trim order (bufOf m) dup hv hdue (enc_recordOf hm items.length) (by omega)
  have hwf : MapWF (mapStep (intoMap items).1 (some (bufOf m))) := (MapWF.intoMap items).mapStep _
  have hview : view (mapStep (intoMap items).1 (some (bufOf m))) = (Store.empty.run (mutations items)).apply m := by
    rw [view_mapStep_some, view_intoMap, b1]
  have hmem := fun b => @mem_snapshot items (bufOf m) b
  have hsum := snapshot_sum (recLen := crcLen) items (bufOf m)
  generalize mapStep (intoMap items).1 (some (bufOf m)) = mp at *
  cases hr : WState.trimLoop crcCodec s.mmLen (order mp.values) s1 with
  | panic s2 => rw [hw, hr] at hdone; cases hdone
  | done s2 =>
    obtain ⟨es, hes, hcr⟩ := trimLoop_crash crc_lawful s.mmLen (order mp.values) s1 s2 [] [] v1 (by rw [q1, h.disk])
      (by
        intro b hb
        have := hmem b ((ho _).mem_iff.1 hb)
        simp only [List.mem_append, List.mem_singleton] at this
        rcases this with hb' | hb'
        · have := z1 b hb'
          rw [← crcLen_eq] at this
          exact this
        · injection hb' with hb'; subst hb'; exact b3)
      (by rw [sumLen_perm _ (ho _)]; rw [b2, recSum_eq] at hsum; simp only [List.length_nil]; omega) trivial hr
    have heff : s.effects crcCodec order (bufOf m) dup = .store 0 (beBytes 8 0) :: es := by
      unfold WState.effects
      rw [hw, hr]
      simp only [Run.andThen_done, Run.state_done]
      rw [hes, f2, List.append_assoc, List.drop_left' rfl]
      rfl
    have hrun := run_values mp hwf (order mp.values) (ho _)
    rw [hview] at hrun
    have hfin := effects_apply (c := crcCodec) order (bufOf m) dup s
    rw [hdone, Run.state_done] at hfin
    have hafter : FileShows s'.file ((Store.empty.run (mutations items)).apply m) :=
      (C13_compaction_preserves h hm ⟨z1, z2, z3⟩ ho dup hS hfull hdue hdone).1
    have hcrash := Crash.boundary (s.effects crcCodec order (bufOf m) dup) s.file k
    rw [heff] at hk hnext hfin hcrash ⊢
    match k with
    | 0 =>
      exact ⟨_, _, hcrash, rfl, hS, fun _ => rfl, fun h => absurd h (by omega), fun h => by simp at h⟩
    | k + 1 =>
      have hs1 : Eff.apply s.file (.store 0 (beBytes 8 0)) = s1.file := f1.symm
      obtain ⟨j, content', hj, hh, hf⟩ := hcr k (by simpa using hk) (by simpa [dataNext] using hnext)
      have hshow : FileShows ((((.store 0 (beBytes 8 0) :: es).take (k + 1)).foldl Eff.apply s.file))
          (Store.empty.run (mutations (((order mp.values).take j).map some))) := by
        intro page
        simp only [List.take_succ_cons, List.foldl_cons, hs1]
        have := open_framed (page := page) hh hf
        simpa using this
      refine ⟨_, _, hcrash, rfl, hshow, fun h => by omega, ?_, ?_⟩
      · intro _ key e he
        have hnd : ((order mp.values).map (·.key)).Nodup := by
          have hk1 : mp.values.map (·.key) = mp.map (·.1) := by
            unfold KvMap.values
            rw [List.map_map]
            apply List.map_congr_left
            intro p hp
            exact (hwf.keyed p.1 p.2 hp).1
          have := ((ho mp.values).map (·.key)).nodup_iff.2 (by rw [hk1]; exact hwf.unique)
          exact this
        have hlive : ∀ b ∈ order mp.values, b.isDeleting = false := by
          intro b hb
          have hb := (ho _).mem_iff.1 hb
          unfold KvMap.values at hb
          obtain ⟨p, hp, rfl⟩ := List.mem_map.1 hb
          exact (hwf.keyed p.1 p.2 hp).2
        rw [← hrun, run_puts _ _ hlive hnd]
        rw [run_puts _ _ (fun b hb => hlive b (List.mem_of_mem_take hb))
          ((List.take_sublist j _).map _ |>.nodup hnd)] at he
        have hfa : (order mp.values).find? (fun b => b.key == key) =
            (((order mp.values).take j).find? (fun b => b.key == key)).or (((order mp.values).drop j).find? (fun b => b.key == key)) := by
          rw [← List.find?_append, List.take_append_drop]
        rw [hfa]
        cases hfi : ((order mp.values).take j).find? (fun b => b.key == key) with
        | none => rw [hfi] at he; cases he
        | some b => rw [hfi] at he; exact he
      · intro hlast
        rw [hlast, List.take_length, hfin] at hshow
        exact fileShows_unique hshow hafter

/-- The hypotheses of C12 at a store whose key `a` was written twice: the next record of `b` compacts. -/
def demoFull : WState :=
  { file := fileOf [recordOf (.put "b" ⟨2, [0]⟩), recordOf (.put "a" ⟨2, [1]⟩), recordOf (.delete "b"), recordOf (.put "a" ⟨2, [0]⟩)] (zeros 7),
    mmLen := 64, page := 64, position := 4, needTrim := true }

theorem demoFull_atRest : AtRest demoFull [some ⟨"b", 2, [0]⟩, some ⟨"a", 2, [1]⟩, some ⟨"b", 100, []⟩, some ⟨"a", 2, [0]⟩] :=
  ⟨by decide +kernel, by decide +kernel, rfl, rfl, rfl⟩

example : Recorded (.put "a" ⟨2, [1]⟩) ∧ demoFull.file.length < 8 + header demoFull.file + (recordOf (.put "a" ⟨2, [1]⟩)).length ∧
    (demoFull.needTrim || true) = true ∧ (WState.write crcCodec idOrder (bufOf (.put "a" ⟨2, [1]⟩)) true demoFull).isDone = true := by
  refine ⟨⟨by decide, by decide +kernel⟩, by decide +kernel, rfl, by decide +kernel⟩

/-- **C12 is false**, end to end: `b` is put and deleted, `a` is put, and everything is on disk.  The next put compacts
the file; if the process dies between the first header and the first record, the next open shows the deleted `b` again,
and `a` is gone. -/
theorem C12_refuted_resurrected : ∃ es s s' rs f i,
    es = fullPut "b" 2 [0] ++ fullPut "a" 2 [1] ++ [.delete "b", .api (), .api (), .io idOrder, .io idOrder, .io idOrder, .io idOrder] ++
      fullPut "a" 2 [0] ++ [.put "a" 2 [1], .api (), .api (), .io idOrder, .io idOrder] ∧
    fresh64 es = some (s, rs) ∧ (∀ r ∈ rs, r = .ok ()) ∧
    s.getAs "b" 2 (Out.ok : Bytes → Out Bytes) = .err .keyNotFound ∧
    step plain s (.io idOrder) = some (s', none) ∧ Crash s.disk (nextEffects s s') f ∧ openAt plain () 64 f = some i ∧
    i.getAs "b" 2 (Out.ok : Bytes → Out Bytes) = .ok [0] ∧ i.getAs "a" 2 (Out.ok : Bytes → Out Bytes) = .err .keyNotFound := by
  have h : passes (fresh64 (fullPut "b" 2 [0] ++ fullPut "a" 2 [1] ++ [.delete "b", .api (), .api (), .io idOrder, .io idOrder, .io idOrder, .io idOrder] ++
      fullPut "a" 2 [0] ++ [.put "a" 2 [1], .api (), .api (), .io idOrder, .io idOrder])) (fun s rs =>
      match step plain s (.io idOrder) with
      | some (s', none) =>
        decide ((∀ r ∈ rs, r = .ok ()) ∧ s.getAs "b" 2 (Out.ok : Bytes → Out Bytes) = .err .keyNotFound) &&
        (match openAt plain () 64 (((nextEffects s s').take 2).foldl Eff.apply s.disk) with
          | some i => decide (i.getAs "b" 2 (Out.ok : Bytes → Out Bytes) = .ok [0] ∧ i.getAs "a" 2 (Out.ok : Bytes → Out Bytes) = .err .keyNotFound)
          | none => false)
      | _ => false) = true := by decide +kernel
  obtain ⟨s, rs, h1, h2⟩ := exists_of_passes h
  split at h2
  · rename_i s' hs
    simp only [Bool.and_eq_true, decide_eq_true_eq] at h2
    obtain ⟨⟨h2, h3⟩, h4⟩ := h2
    split at h4
    · rename_i i hi
      simp only [decide_eq_true_eq] at h4
      exact ⟨_, s, s', rs, _, i, rfl, h1, h2, h3, hs, Crash.boundary _ _ 2, hi, h4⟩
    · cases h4
  · cases h2

end Mmkv
