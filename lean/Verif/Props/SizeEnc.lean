import Verif.Props.CrashEnc
/-!
# The size of records and of the file of an encrypted store: C07, C13, C14, C16, C17

The counterpart of `Props/Size.lean`: one background write of an encrypted store, on any file.
-/

namespace Mmkv
open Spec Inst

/-- How long the encrypted record of a mutation is (`encRecordOf_length`: whatever the cipher, the key, the nonce and the position). -/
def encLen (m : Mutation) : Nat := (kvToBytes (bufOf m)).length + 12

/-- The length `encLen` is that of the record. -/
theorem encLen_spec (C : Cipher) (k nonce : Bytes) (pos : Nat) (m : Mutation) : (encRecordOf C k nonce pos m).length = encLen m :=
  encRecordOf_length C k nonce pos m

theorem recSum_aead (items : List (Option Buffer)) :
    recSum aeadLen items = ((items.filterMap id).map fun b => encRecordSize b.key b.type b.value).sum := by
  unfold recSum sumLen
  congr 1
  apply List.map_congr_left
  intro b _
  exact aeadLen_eq b

theorem encResting_of_valid {C : Cipher} {k nonce : Bytes} {s : WState} {content : Bytes} {items : List (Option Buffer)}
    (h : Valid (aeadCodec ⟨C, k, nonce⟩) s content items) (hq : s.quota = none) : EncResting C k nonce s items := by
  refine ⟨⟨h.usz, h.mm, hq, items, readItems_eq h, h.pos⟩, ?_⟩
  have hv : Valid (aeadCodec ⟨C, k, nonce⟩)
      { file := s.file, mmLen := s.file.length, page := 0, position := items.length, needTrim := false } content items :=
    ⟨rfl, rfl, h.holds, h.framed, rfl⟩
  have := readItems_eq hv
  exact this

/-- A directory whose data file has a length header that points past the end cannot be opened, with whatever key. -/
theorem openEnc_bad {file : Bytes} (h : BadHeader file) (C : Cipher) (page : Nat) (key : String) (rand : Bytes) (nonce : Option Bytes) :
    openEnc C page key rand ⟨file, nonce⟩ = none := by
  obtain ⟨h8, hb⟩ := h
  have hne : file.length ≠ 0 := by omega
  unfold openEnc
  split
  · rfl
  · unfold openAt openStore
    have hr : ∀ c : Codec, WState.readItems { file := file, mmLen := file.length, page := page, position := 0, needTrim := false } c = none := by
      intro c
      unfold WState.readItems WState.writeOffset WState.lenOffset
      rw [if_neg (by simp only []; omega), if_neg (by simp)]
      simp only []
      by_cases h64 : beVal (file.take 8) + 8 < 2 ^ 64
      · rw [if_pos h64]
        simp only []
        rw [if_neg (by omega), if_pos hb]
      · rw [if_neg h64]
    simp only [configNew, hne, if_false, hr]

theorem enc_write_cases {C : Cipher} {k nonce : Bytes} {s : WState} {items : List (Option Buffer)} (h : EncResting C k nonce s items)
    {m : Mutation} (hm : EncRecorded m) (hsz : EncSizes items m) (hh : header s.file + encLen m + 8 < 2 ^ 64)
    {order : Order} (ho : ∀ l, (order l).Perm l) (dup : Bool) :
    (∃ s' content content' items', Valid (aeadCodec ⟨C, k, nonce⟩) s content items ∧ header s.file = content.length ∧
      WState.write (aeadCodec ⟨C, k, nonce⟩) order (bufOf m) dup s = .done s' ∧ Valid (aeadCodec ⟨C, k, nonce⟩) s' content' items' ∧
      SameConf s s' ∧ Shape aeadLen order (bufOf m) dup s content items s' content' items' ∧
      Store.empty.run (mutations items') = (Store.empty.run (mutations items)).apply m) ∨
    ∃ s', WState.write (aeadCodec ⟨C, k, nonce⟩) order (bufOf m) dup s = .panic s' ∧ BadHeader s'.file := by
  obtain ⟨content, hv, hc⟩ := h.valid
  obtain ⟨b1, b3⟩ := hm.buf
  obtain ⟨z1, z2, z3⟩ := hsz
  have b2 : aeadLen (bufOf m) = encLen m := rfl
  have := write_or (aead_lawful ⟨C, k, nonce⟩) order ho (bufOf m) dup hv h.rest.disk (by
      intro b' hb'
      simp only [List.mem_append, List.mem_singleton] at hb'
      rcases hb' with hb' | hb'
      · have := z1 b' hb'
        rw [← aeadLen_eq] at this
        exact this
      · injection hb' with hb'; subst hb'; exact b3)
    (by rw [b2, ← hc]; exact hh) (by rw [b2, recSum_aead]; unfold encLen; omega) (by unfold aeadPos counterMax; omega)
  rw [b1] at this
  rcases this with ⟨s', content', items', h1, h2, h3, h4, h5⟩ | h
  · exact .inl ⟨s', content, content', items', hv, hc, h1, h2, h3, h4, h5⟩
  · exact .inr h

/-- **C07** for an encrypted store, the dichotomy: one background write, of a record of any size, in any state of the file, either
completes and the file then shows exactly the mutation added - or it panics and leaves a file that can never be opened again, with
whatever key. -/
theorem C07_encrypted_saved_or_destroyed {C : Cipher} {key : String} {k nonce : Bytes} {s : WState} {items : List (Option Buffer)}
    (h : EncResting C k nonce s items) (hk : decodeKey key = some k) (hn : nonce.length = 11)
    {m : Mutation} (hm : EncRecorded m) (hsz : EncSizes items m) (hh : header s.file + encLen m + 8 < 2 ^ 64)
    {order : Order} (ho : ∀ l, (order l).Perm l) (dup : Bool) {S : Store} (hS : EncFileShows C key nonce s.file S) :
    (∃ s' items', WState.write (aeadCodec ⟨C, k, nonce⟩) order (bufOf m) dup s = .done s' ∧ EncResting C k nonce s' items' ∧
      EncFileShows C key nonce s'.file (S.apply m)) ∨
    ∃ s', WState.write (aeadCodec ⟨C, k, nonce⟩) order (bufOf m) dup s = .panic s' ∧
      ∀ page key' rand nonce', openEnc C page key' rand ⟨s'.file, nonce'⟩ = none := by
  rcases enc_write_cases h hm hsz hh ho dup with ⟨s', content, content', items', hv, _, h1, h2, h3, _, h5⟩ | ⟨s', h1, h2⟩
  · left
    have hr := encResting_of_valid h2 (by rw [h3.quota, h.rest.disk])
    refine ⟨s', items', h1, hr, ?_⟩
    have := hr.shows hk hn
    rw [h5, encFileShows_unique (h.shows hk hn) hS] at this
    exact this
  · exact .inr ⟨s', h1, fun page key' rand nonce' => openEnc_bad h2 C page key' rand nonce'⟩

/-- **C07 is false** for encrypted stores too: whenever no compaction is due and the encrypted record does not fit the free space plus one
page, the write panics and the directory can never be opened again. -/
theorem C07_encrypted_refuted {C : Cipher} {k nonce : Bytes} {s : WState} {items : List (Option Buffer)}
    (h : EncResting C k nonce s items) {m : Mutation} (hm : EncRecorded m) (hsz : EncSizes items m)
    (hh : header s.file + encLen m + 8 < 2 ^ 64) {order : Order} (ho : ∀ l, (order l).Perm l) (hdue : s.needTrim = false)
    (hbig : s.file.length + s.page < 8 + header s.file + encLen m) :
    ∃ s', WState.write (aeadCodec ⟨C, k, nonce⟩) order (bufOf m) false s = .panic s' ∧
      ∀ page key rand nonce', openEnc C page key rand ⟨s'.file, nonce'⟩ = none := by
  have b2 : aeadLen (bufOf m) = encLen m := rfl
  rcases enc_write_cases h hm hsz hh ho false with ⟨s', content, content', items', hv, hc, h1, h2, h3, h4, h5⟩ | ⟨s', h1, h2⟩
  · exfalso
    have hl' := h2.holds.len
    cases h4 with
    | append hfit => rw [b2] at hfit; omega
    | expand hfull hnt hi hcr hlen ht =>
      obtain ⟨r, hr, rfl⟩ := hcr
      rw [List.length_append, hr, b2] at hl'
      omega
    | trim hfull hnt => rw [hdue] at hnt; cases hnt
  · exact ⟨s', h1, fun page key' rand nonce' => openEnc_bad h2 C page key' rand nonce'⟩

/-- **C07** for an encrypted store, what is true: a write completes whenever the encrypted records the file decrypts to, and the new one,
are at most a page long each, or take up no more room than the file has given them and the new one fits the free space plus one page;
the file then shows exactly the mutation added.  Missing from C07: larger records (`C07_encrypted_refuted`). -/
theorem C07_encrypted_partial {C : Cipher} {key : String} {k nonce : Bytes} {s : WState} {items : List (Option Buffer)}
    (h : EncResting C k nonce s items) (hk : decodeKey key = some k) (hn : nonce.length = 11)
    {m : Mutation} (hm : EncRecorded m) (hsz : EncSizes items m) (hh : header s.file + encLen m + 8 < 2 ^ 64)
    {order : Order} (ho : ∀ l, (order l).Perm l) (dup : Bool) {S : Store} (hS : EncFileShows C key nonce s.file S)
    (hfit : (((items.filterMap id).map fun b => encRecordSize b.key b.type b.value).sum ≤ header s.file ∧
        8 + header s.file + encLen m ≤ s.file.length + s.page) ∨
      ((∀ b, some b ∈ items → encRecordSize b.key b.type b.value ≤ s.page) ∧ encLen m ≤ s.page)) :
    ∃ s' items', WState.write (aeadCodec ⟨C, k, nonce⟩) order (bufOf m) dup s = .done s' ∧ EncResting C k nonce s' items' ∧
      EncFileShows C key nonce s'.file (S.apply m) := by
  rcases C07_encrypted_saved_or_destroyed h hk hn hm hsz hh ho dup hS with h1 | ⟨s', h1, _⟩
  · exact h1
  · exfalso
    obtain ⟨content, hv, hc⟩ := h.valid
    obtain ⟨b1, b3⟩ := hm.buf
    obtain ⟨z1, z2, z3⟩ := hsz
    have b2 : aeadLen (bufOf m) = encLen m := rfl
    have hfits : Fits aeadLen (bufOf m) s content items := by
      rcases hfit with ⟨h1, h2⟩ | ⟨h1, h2⟩
      · right
        rw [recSum_aead, b2]
        omega
      · left
        intro b' hb'
        simp only [List.mem_append, List.mem_singleton] at hb'
        rcases hb' with hb' | hb'
        · rw [aeadLen_eq]; exact h1 b' hb'
        · injection hb' with hb'; subst hb'; omega
    obtain ⟨s2, _, _, h2, _⟩ := write_core (aead_lawful ⟨C, k, nonce⟩) order ho (bufOf m) dup hv h.rest.disk (by
        intro b' hb'
        simp only [List.mem_append, List.mem_singleton] at hb'
        rcases hb' with hb' | hb'
        · have := z1 b' hb'
          rw [← aeadLen_eq] at this
          exact this
        · injection hb' with hb'; subst hb'; exact b3)
      hfits (by rw [b2, ← hc]; exact hh) (fun _ => by rw [b2, recSum_aead]; unfold encLen; omega) (by unfold aeadPos counterMax; omega)
    rw [h1] at h2
    cases h2

/-- **C13** for an encrypted store: a compaction that completes leaves a file that, opened with the same key, shows the map before with
the new mutation, for every order in which the hash map yields its values - and is at rest again, ready for the next write. -/
theorem C13_encrypted {C : Cipher} {key : String} {k nonce : Bytes} {s s' : WState} {items : List (Option Buffer)}
    (h : EncResting C k nonce s items) (hk : decodeKey key = some k) (hn : nonce.length = 11)
    {m : Mutation} (hm : EncRecorded m) (hsz : EncSizes items m) (hh : header s.file + encLen m + 8 < 2 ^ 64)
    {order : Order} (ho : ∀ l, (order l).Perm l) (dup : Bool) {S : Store} (hS : EncFileShows C key nonce s.file S)
    (_hfull : s.file.length < 8 + header s.file + encLen m) (_hdue : (s.needTrim || dup) = true)
    (hdone : WState.write (aeadCodec ⟨C, k, nonce⟩) order (bufOf m) dup s = .done s') :
    EncFileShows C key nonce s'.file (S.apply m) ∧ ∃ items', EncResting C k nonce s' items' := by
  rcases C07_encrypted_saved_or_destroyed h hk hn hm hsz hh ho dup hS with ⟨s2, items', h1, h2, h3⟩ | ⟨s2, h1, _⟩
  · rw [hdone] at h1; injection h1 with h1; subst h1; exact ⟨h3, items', h2⟩
  · rw [hdone] at h1; cases h1

/-- The values of a hash map, in any order: one per key, none a deletion, and they are what the map shows. -/
theorem order_values_spec {mp : KvMap Buffer} (hwf : MapWF mp) {order : Order} (ho : ∀ l, (order l).Perm l) :
    ((order mp.values).map (·.key)).Nodup ∧ (∀ b ∈ order mp.values, b.type ≠ deletedToken) ∧
      ∀ k e, view mp k = some e ↔ ∃ b ∈ order mp.values, b.key = k ∧ ⟨b.type, b.value⟩ = e := by
  have hperm := ho mp.values
  have hkeys : mp.values.map (·.key) = mp.map (·.1) := by
    unfold KvMap.values
    rw [List.map_map]
    apply List.map_congr_left
    intro p hp
    exact (hwf.keyed p.1 p.2 hp).1
  have hmem : ∀ b, b ∈ order mp.values ↔ (b.key, b) ∈ mp := by
    intro b
    rw [hperm.mem_iff]
    unfold KvMap.values
    rw [List.mem_map]
    constructor
    · rintro ⟨⟨k, b'⟩, hp, rfl⟩
      have := (hwf.keyed _ _ hp).1
      subst this
      exact hp
    · intro hp; exact ⟨_, hp, rfl⟩
  refine ⟨?_, ?_, ?_⟩
  · rw [(hperm.map _).nodup_iff, hkeys]; exact hwf.unique
  · intro b hb
    have := (hwf.keyed _ _ ((hmem b).1 hb)).2
    simpa [Buffer.isDeleting] using this
  · intro k e
    unfold view
    constructor
    · intro hk
      cases hg : KvMap.get mp k with
      | none => rw [hg] at hk; cases hk
      | some b =>
        rw [hg] at hk
        simp only [Option.map_some, Option.some.injEq, Buffer.entry] at hk
        have hin := KvMap.mem_of_get hg
        have hkey := (hwf.keyed _ _ hin).1
        subst hkey
        exact ⟨b, (hmem b).2 hin, rfl, hk⟩
    · rintro ⟨b, hb, rfl, rfl⟩
      rw [KvMap.get_of_mem hwf.unique ((hmem b).1 hb)]
      rfl

/-- **C14** for an encrypted store: after a compaction the file decrypts to exactly one record for each live key, in some order: no
tombstone, no superseded value, no undecodable record, nothing else. -/
theorem C14_encrypted {C : Cipher} {key : String} {k nonce : Bytes} {s s' : WState} {items : List (Option Buffer)}
    (h : EncResting C k nonce s items) (hk : decodeKey key = some k) (hn : nonce.length = 11)
    {m : Mutation} (hm : EncRecorded m) (hsz : EncSizes items m) (hh : header s.file + encLen m + 8 < 2 ^ 64)
    {order : Order} (ho : ∀ l, (order l).Perm l) (dup : Bool) {S : Store} (hS : EncFileShows C key nonce s.file S)
    (hfull : s.file.length < 8 + header s.file + encLen m) (hdue : (s.needTrim || dup) = true)
    (hdone : WState.write (aeadCodec ⟨C, k, nonce⟩) order (bufOf m) dup s = .done s') :
    ∃ bs : List Buffer, fileRecords (aeadCodec ⟨C, k, nonce⟩) s'.file = some (bs.map some) ∧
      (bs.map (·.key)).Nodup ∧ (∀ b ∈ bs, b.type ≠ deletedToken) ∧
      (∀ k e, (S.apply m) k = some e ↔ ∃ b ∈ bs, b.key = k ∧ ⟨b.type, b.value⟩ = e) ∧
      header s'.file = (bs.map fun b => encRecordSize b.key b.type b.value).sum := by
  have b2 : aeadLen (bufOf m) = encLen m := rfl
  rcases enc_write_cases h hm hsz hh ho dup with ⟨s2, content, content', items', hv, hc, h1, h2, h3, h4, h5⟩ | ⟨s2, h1, _⟩
  · rw [hdone] at h1
    injection h1 with h1
    subst h1
    have hr := encResting_of_valid h2 (by rw [h3.quota, h.rest.disk])
    have hSS := encFileShows_unique (h.shows hk hn) hS
    subst hSS
    cases h4 with
    | append hfit => rw [b2] at hfit; omega
    | expand _ hnt => rw [hdue] at hnt; cases hnt
    | trim _ _ hi hcl _ _ =>
      have hwf : MapWF (mapStep (intoMap items).1 (some (bufOf m))) := (MapWF.intoMap items).mapStep _
      have hview : view (mapStep (intoMap items).1 (some (bufOf m))) = (Store.empty.run (mutations items)).apply m := by
        rw [view_mapStep_some, view_intoMap, hm.buf.1]
      generalize mapStep (intoMap items).1 (some (bufOf m)) = mp at *
      obtain ⟨v1, v2, v3⟩ := order_values_spec hwf ho
      refine ⟨order mp.values, by rw [← hi]; exact hr.reads, v1, v2, ?_, ?_⟩
      · rw [← hview]; exact v3
      · have e1 : header s'.file = content'.length := h2.holds.header
        rw [e1, hcl, ← sumLen_perm aeadLen (ho mp.values)]
        unfold sumLen
        congr 1
        apply List.map_congr_left
        intro b _
        exact aeadLen_eq b
  · rw [hdone] at h1; cases h1

/-- **C16** for an encrypted store, one write on any state whose mapping covers the file, whether it completes or panics: the file grows
by a whole number of pages, possibly none; if the record fits, none. -/
theorem C16_encrypted (C : Cipher) (k nonce : Bytes) (order : Order) (b : Buffer) (dup : Bool) {s : WState} (h : s.mmLen = s.file.length) :
    (∃ n, (WState.write (aeadCodec ⟨C, k, nonce⟩) order b dup s).state.file.length = s.file.length + n * s.page) ∧
    (8 + header s.file + encRecordSize b.key b.type b.value ≤ s.file.length →
      (WState.write (aeadCodec ⟨C, k, nonce⟩) order b dup s).state.file.length = s.file.length) := by
  constructor
  · obtain ⟨n, hn⟩ := grown_write (c := aeadCodec ⟨C, k, nonce⟩) order b dup h
    exact ⟨n, hn.len⟩
  · intro hfit
    cases he : (aeadCodec ⟨C, k, nonce⟩).enc b s.position with
    | none =>
      unfold WState.write
      simp only [he, Run.state_panic]
    | some r =>
      have hrl : r.length = aeadLen b := by
        have he' : aeadEnc ⟨C, k, nonce⟩ b s.position = some r := he
        unfold aeadEnc at he'
        cases hs : Stream.encrypt ⟨C, k, nonce⟩ (kvToBytes b) s.position with
        | none => rw [hs] at he'; cases he'
        | some ct =>
          rw [hs] at he'
          simp only [Option.some.injEq] at he'
          unfold Stream.encrypt at hs
          split at hs
          · cases hs
          · simp only [Option.some.injEq] at hs
            subst hs
            subst he'
            simp only [List.length_append, beBytes_length, C.encrypt_length, aeadLen]
            omega
      cases ho : s.writeOffset with
      | none =>
        unfold WState.write
        simp only [he, ho, Run.state_panic]
      | some off =>
        have hoff : off = header s.file + 8 := by
          unfold WState.writeOffset WState.lenOffset at ho
          by_cases h1 : s.mmLen < 8
          · rw [if_pos h1] at ho; cases ho
          rw [if_neg h1] at ho
          by_cases h2 : s.usizeBytes ≠ 8
          · rw [if_pos h2] at ho; cases ho
          rw [if_neg h2] at ho
          simp only [] at ho
          split at ho
          · injection ho with ho; exact ho.symm
          · cases ho
        have := (grown_write_fits (c := aeadCodec ⟨C, k, nonce⟩) order b dup h (data := r) (off := off) he ho
          (by rw [hrl, aeadLen_eq]; omega)).len
        simpa using this

theorem overflows_none_any (recLen : Buffer → Nat) (maxLen : Nat) : ∀ (bs : List Buffer) (off : Nat), off + sumLen recLen bs ≤ maxLen →
    overflows recLen maxLen off bs = 0
  | [], _, _ => rfl
  | b :: bs, off, h => by
    rw [sumLen_cons] at h
    rw [overflows, if_neg (by omega), overflows_none_any recLen maxLen bs _ (by omega)]

/-- How many of the encrypted records `bs`, laid out from byte 8 on, end past `len`. -/
def encEndingPast (len : Nat) (bs : List Buffer) : Nat :=
  ((List.range bs.length).filter fun n => decide (len < 8 + ((bs.take (n + 1)).map fun b => encRecordSize b.key b.type b.value).sum)).length

theorem overflows_aead (maxLen : Nat) : ∀ (bs : List Buffer) (off : Nat), overflows aeadLen maxLen off bs =
    ((List.range bs.length).filter fun n => decide (maxLen < off + ((bs.take (n + 1)).map fun b => encRecordSize b.key b.type b.value).sum)).length
  | [], off => rfl
  | b :: bs, off => by
    have hcomp : ((fun n => decide (maxLen < off + (((b :: bs).take (n + 1)).map fun b => encRecordSize b.key b.type b.value).sum)) ∘ Nat.succ) =
        fun n => decide (maxLen < off + aeadLen b + ((bs.take (n + 1)).map fun b => encRecordSize b.key b.type b.value).sum) := by
      funext n
      simp only [Function.comp, List.take_succ_cons, List.map_cons, List.sum_cons, ← aeadLen_eq b, Nat.add_assoc]
    have h0 : (((b :: bs).take (0 + 1)).map fun b => encRecordSize b.key b.type b.value).sum = aeadLen b := by
      simp [aeadLen_eq]
    rw [overflows, overflows_aead maxLen bs, List.length_cons, List.range_succ_eq_map, List.filter_cons, List.filter_map, hcomp, h0]
    by_cases h : off + aeadLen b > maxLen
    · have h' : maxLen < off + aeadLen b := h
      simp [h']; omega
    · have h' : ¬ maxLen < off + aeadLen b := h
      simp [h']

/-- **C17** for an encrypted store, what is true: a completed write leaves the file alone if the record fits, adds one page if no
compaction is due; and a compaction adds one page for every rewritten record that ends past the old end of the file.  In particular a
compaction whose result fits the file does not grow it.  Missing from C17: as in `C17_growth_partial`. -/
theorem C17_encrypted_partial {C : Cipher} {k nonce : Bytes} {s s' : WState} {items : List (Option Buffer)}
    (h : EncResting C k nonce s items) {m : Mutation} (hm : EncRecorded m) (hsz : EncSizes items m)
    (hh : header s.file + encLen m + 8 < 2 ^ 64) {order : Order} (ho : ∀ l, (order l).Perm l) (dup : Bool)
    (hdone : WState.write (aeadCodec ⟨C, k, nonce⟩) order (bufOf m) dup s = .done s') :
    (8 + header s.file + encLen m ≤ s.file.length → s'.file.length = s.file.length) ∧
    (s.file.length < 8 + header s.file + encLen m → (s.needTrim || dup) = false → s'.file.length = s.file.length + s.page) ∧
    (s.file.length < 8 + header s.file + encLen m → (s.needTrim || dup) = true →
      (∃ bs, fileRecords (aeadCodec ⟨C, k, nonce⟩) s'.file = some (bs.map some) ∧
        s'.file.length = s.file.length + encEndingPast s.file.length bs * s.page) ∧
      (8 + header s'.file ≤ s.file.length → s'.file.length = s.file.length)) := by
  have b2 : aeadLen (bufOf m) = encLen m := rfl
  rcases enc_write_cases h hm hsz hh ho dup with ⟨s2, content, content', items', hv, hc, h1, h2, h3, h4, h5⟩ | ⟨s2, h1, _⟩
  · rw [hdone] at h1
    injection h1 with h1
    subst h1
    have hr := encResting_of_valid h2 (by rw [h3.quota, h.rest.disk])
    cases h4 with
    | append hfit hi hcr hl ht =>
      rw [b2] at hfit
      exact ⟨fun _ => hl, fun hf => by omega, fun hf => by omega⟩
    | expand hfull hnt hi hcr hl ht =>
      rw [b2] at hfull
      exact ⟨fun hf => by omega, fun _ _ => hl, fun _ hd => by rw [hnt] at hd; cases hd⟩
    | trim hfull hnt hi hcl hl ht =>
      rw [b2] at hfull
      refine ⟨fun hf => by omega, fun _ hd => (by rw [hnt] at hd; cases hd), fun _ _ => ⟨⟨_, by rw [← hi]; exact hr.reads, ?_⟩, fun hfit => ?_⟩⟩
      · rw [hl, overflows_aead]; rfl
      · have e1 : header s'.file = content'.length := h2.holds.header
        rw [e1, hcl] at hfit
        rw [hl, overflows_none_any aeadLen _ _ _ (by rw [sumLen_perm aeadLen (ho _)]; omega)]
        simp
  · rw [hdone] at h1; cases h1

/-- Non-vacuity at `encDemo 0`: a compaction is due and completes (`EncSizes`, `EncRecorded` at the end of `Props/CrashEnc.lean`); and with
the flag down a record of 200 bytes does not fit a page. -/
example : header (encDemo 0).file + encLen (.put "a" ⟨2, [1]⟩) + 8 < 2 ^ 64 ∧ EncRecorded (.put "a" ⟨2, [1]⟩) ∧
    (encDemo 0).file.length < 8 + header (encDemo 0).file + encLen (.put "a" ⟨2, [1]⟩) ∧
    (WState.write (aeadCodec ⟨toy, testKeyBytes, nonce1⟩) idOrder (bufOf (.put "a" ⟨2, [1]⟩)) true (encDemo 0)).isDone = true ∧
    EncRecorded (.put "x" ⟨6, List.replicate 200 7⟩) ∧
    (encDemo 0).file.length + (encDemo 0).page < 8 + header (encDemo 0).file + encLen (.put "x" ⟨6, List.replicate 200 7⟩) ∧
    (∀ b, some b ∈ ([some ⟨"b", 2, [0]⟩, some ⟨"a", 2, [1]⟩, some ⟨"b", 100, []⟩, some ⟨"a", 2, [0]⟩] : List (Option Buffer)) →
      encRecordSize b.key b.type b.value ≤ (encDemo 0).page) ∧ encLen (.put "a" ⟨2, [1]⟩) ≤ (encDemo 0).page := by
  refine ⟨by decide +kernel, ⟨by decide, by decide +kernel⟩, by decide +kernel, by decide +kernel, ⟨by decide, by decide +kernel⟩,
    by decide +kernel, ?_, by decide +kernel⟩
  intro b hb
  simp only [List.mem_cons, List.not_mem_nil, or_false, Option.some.injEq] at hb
  rcases hb with rfl | rfl | rfl | rfl <;> decide +kernel

/-- `C07_encrypted_refuted` applies to the demo file with no compaction due. -/
example : ∃ s', WState.write (aeadCodec ⟨toy, testKeyBytes, nonce1⟩) idOrder (bufOf (.put "x" ⟨6, List.replicate 200 7⟩)) false
      { encDemo 0 with needTrim := false } = .panic s' ∧
    ∀ page key rand nonce', openEnc toy page key rand ⟨s'.file, nonce'⟩ = none := by
  have h0 := encDemo_resting 0 (by simp)
  refine C07_encrypted_refuted (m := .put "x" ⟨6, List.replicate 200 7⟩) (s := { encDemo 0 with needTrim := false }) ⟨⟨h0.rest.target, h0.rest.mapped, h0.rest.disk, h0.rest.reads⟩, h0.reads⟩
    (show EncRecorded _ from ⟨by decide, by decide +kernel⟩) ⟨?_, by decide +kernel, by decide⟩ (by decide +kernel) (fun l => by simp [idOrder]) rfl (by decide +kernel)
  intro b hb
  simp only [List.mem_cons, List.not_mem_nil, or_false, Option.some.injEq] at hb
  rcases hb with rfl | rfl | rfl | rfl <;> decide +kernel

end Mmkv
