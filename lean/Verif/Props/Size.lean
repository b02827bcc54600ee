import Verif.Props.Records
import Verif.Lemmas.Growth
import Verif.Lemmas.Fatal
/-!
# The size of records and of the file: C07, C13, C14, C16, C17

About one background write of the plain store, on any file; the histories are in `Props/Durability.lean`.
-/

namespace Mmkv
open Spec Inst

/-- Opening `file` (with any page size) succeeds and shows the plain map `S`. -/
def FileShows (file : Bytes) (S : Store) : Prop :=
  ∀ page, ∃ i, openAt plain () page file = some i ∧ i.Shows S

/-- The length header of a file. -/
def header (file : Bytes) : Nat := beVal (file.take 8)

/-- The background thread between two jobs: its mapping covers the whole file, the file reads as `items` from the
start, its record counter is in step, and the disk has room. -/
structure AtRest (s : WState) (items : List (Option Buffer)) : Prop where
  mapped : s.mmLen = s.file.length
  reads : fileRecords crcCodec s.file = some items
  position : s.position = items.length
  disk : s.quota = none
  usize : s.usizeBytes = 8

/-- Every record that `items` and `m` would be rewritten to is below 4 GiB, and so is the total below 2^64. -/
def Sizes (s : WState) (items : List (Option Buffer)) (m : Mutation) : Prop :=
  (∀ b, some b ∈ items → recordSize b.key b.type b.value < 2 ^ 32) ∧
  ((items.filterMap id).map fun b => recordSize b.key b.type b.value).sum + (recordOf m).length + 8 < 2 ^ 64 ∧
  header s.file + (recordOf m).length + 8 < 2 ^ 64

theorem crcLen_eq (b : Buffer) : crcLen b = recordSize b.key b.type b.value := by
  show (kvToBytes b).length + 5 = 4 + (kvToBytes b).length + 1
  omega

theorem recSum_eq (items : List (Option Buffer)) :
    recSum crcLen items = ((items.filterMap id).map fun b => recordSize b.key b.type b.value).sum := by
  unfold recSum sumLen
  congr 1
  apply List.map_congr_left
  intro b _
  exact crcLen_eq b

theorem AtRest.valid {s : WState} {items : List (Option Buffer)} (h : AtRest s items) :
    ∃ content, Valid crcCodec s content items ∧ header s.file = content.length := by
  obtain ⟨_, content, hh, hf⟩ := readItems_inv crc_lawful rfl h.reads
  exact ⟨content, ⟨h.usize, h.mapped, hh, hf, h.position⟩, hh.header⟩

theorem atRest_of_valid {s : WState} {content : Bytes} {items : List (Option Buffer)} (h : Valid crcCodec s content items)
    (hq : s.quota = none) : AtRest s items := by
  refine ⟨h.mm, ?_, h.pos, hq, h.usz⟩
  have hv : Valid crcCodec { file := s.file, mmLen := s.file.length, page := 0, position := items.length, needTrim := false } content items :=
    ⟨rfl, rfl, h.holds, h.framed, rfl⟩
  have := readItems_eq hv
  exact this

/-- A writer that has just opened a file is at rest. -/
theorem atRest_open {page : Nat} {file : Bytes} {o : Opened} (h : openStore crcCodec page file = some o) :
    ∃ items, AtRest o.ws items ∧ view o.kv = Store.empty.run (mutations items) := by
  unfold openStore at h
  simp only [] at h
  split at h
  · cases h
  · split at h
    · cases h
    · rename_i items hi
      injection h with h
      subst h
      exact ⟨items, ⟨rfl, hi, rfl, rfl, rfl⟩, view_intoMap items⟩

theorem AtRest.fileShows {s : WState} {items : List (Option Buffer)} (h : AtRest s items) :
    FileShows s.file (Store.empty.run (mutations items)) := by
  obtain ⟨content, hv, _⟩ := h.valid
  exact fun page => open_framed hv.holds hv.framed

theorem fileShows_unique {file : Bytes} {S S' : Store} (h : FileShows file S) (h' : FileShows file S') : S = S' := by
  obtain ⟨i, hi, hs⟩ := h 8
  obtain ⟨i', hi', hs'⟩ := h' 8
  rw [hi] at hi'
  injection hi' with hi'
  subst hi'
  rw [← (shows_open hi).1 hs, ← (shows_open hi).1 hs']

theorem Recorded.buf {m : Mutation} (h : Recorded m) : (bufOf m).mutation = m ∧ crcLen (bufOf m) = (recordOf m).length ∧ crcOk (bufOf m) := by
  obtain ⟨h1, h2, h3⟩ := h.rec
  refine ⟨h2, by rw [crcLen_eq, h1, record_length], ?_⟩
  rw [record_length, ← crcLen_eq] at h3
  exact h3

/-! ### C07 -/

theorem openAt_bad {file : Bytes} (h : BadHeader file) (page : Nat) : openAt plain () page file = none := by
  obtain ⟨h8, hb⟩ := h
  have hr : WState.readItems { file := file, mmLen := file.length, page := page, position := 0, needTrim := false } crcCodec = none := by
    unfold WState.readItems WState.writeOffset WState.lenOffset
    rw [if_neg (by simp only []; omega), if_neg (by simp)]
    simp only []
    by_cases h64 : beVal (file.take 8) + 8 < 2 ^ 64
    · rw [if_pos h64]
      simp only []
      rw [if_neg (by omega), if_pos hb]
    · rw [if_neg h64]
  unfold openAt openStore plain
  have hne : file.length ≠ 0 := by omega
  simp only [configNew, hne, if_false, hr]

theorem write_cases {s : WState} {items : List (Option Buffer)} (h : AtRest s items) {m : Mutation} (hm : Recorded m)
    (hsz : Sizes s items m) {order : Order} (ho : ∀ l, (order l).Perm l) (dup : Bool) :
    (∃ s' content content' items', Valid crcCodec s content items ∧ header s.file = content.length ∧
      WState.write crcCodec order (bufOf m) dup s = .done s' ∧ Valid crcCodec s' content' items' ∧
      SameConf s s' ∧ Shape crcLen order (bufOf m) dup s content items s' content' items' ∧
      Store.empty.run (mutations items') = (Store.empty.run (mutations items)).apply m) ∨
    ∃ s', WState.write crcCodec order (bufOf m) dup s = .panic s' ∧ BadHeader s'.file := by
  obtain ⟨content, hv, hc⟩ := h.valid
  obtain ⟨b1, b2, b3⟩ := hm.buf
  obtain ⟨z1, z2, z3⟩ := hsz
  have := write_or crc_lawful order ho (bufOf m) dup hv h.disk (by
      intro b' hb'
      simp only [List.mem_append, List.mem_singleton] at hb'
      rcases hb' with hb' | hb'
      · have := z1 b' hb'
        rw [← crcLen_eq] at this
        exact this
      · injection hb' with hb'; subst hb'; exact b3)
    (by rw [b2, ← hc]; exact z3) (by rw [b2, recSum_eq]; exact z2) trivial
  rw [b1] at this
  rcases this with ⟨s', content', items', h1, h2, h3, h4, h5⟩ | h
  · exact .inl ⟨s', content, content', items', hv, hc, h1, h2, h3, h4, h5⟩
  · exact .inr h

/-- **C07**, the dichotomy: one background write, of a record of any size, in any state of the file, either completes and
the file then shows exactly the mutation added - or it panics and leaves a file that can never be opened again. -/
theorem C07_saved_or_destroyed {s : WState} {items : List (Option Buffer)} (h : AtRest s items) {m : Mutation}
    (hm : Recorded m) (hsz : Sizes s items m) {order : Order} (ho : ∀ l, (order l).Perm l) (dup : Bool) {S : Store}
    (hS : FileShows s.file S) :
    (∃ s' items', WState.write crcCodec order (bufOf m) dup s = .done s' ∧ AtRest s' items' ∧ FileShows s'.file (S.apply m)) ∨
    ∃ s', WState.write crcCodec order (bufOf m) dup s = .panic s' ∧ ∀ page, openAt plain () page s'.file = none := by
  rcases write_cases h hm hsz ho dup with ⟨s', content, content', items', hv, _, h1, h2, h3, _, h5⟩ | ⟨s', h1, h2⟩
  · left
    have hr := atRest_of_valid h2 (by rw [h3.quota, h.disk])
    refine ⟨s', items', h1, hr, ?_⟩
    have := hr.fileShows
    rw [h5, fileShows_unique h.fileShows hS] at this
    exact this
  · exact .inr ⟨s', h1, openAt_bad h2⟩

/-- **C07 is false**: whenever no compaction is due and the record does not fit the free space plus one page, the write
panics and the file can never be opened again - although `put` has long returned `Ok`. -/
theorem C07_refuted_append {s : WState} {items : List (Option Buffer)} (h : AtRest s items) {m : Mutation}
    (hm : Recorded m) (hsz : Sizes s items m) {order : Order} (ho : ∀ l, (order l).Perm l) (hdue : s.needTrim = false)
    (hbig : s.file.length + s.page < 8 + header s.file + (recordOf m).length) :
    ∃ s', WState.write crcCodec order (bufOf m) false s = .panic s' ∧ ∀ page, openAt plain () page s'.file = none := by
  obtain ⟨_, b2, _⟩ := hm.buf
  rcases write_cases h hm hsz ho false with ⟨s', content, content', items', hv, hc, h1, h2, h3, h4, h5⟩ | ⟨s', h1, h2⟩
  · exfalso
    have hl' := h2.holds.len
    cases h4 with
    | append hfit => rw [b2] at hfit; omega
    | expand hfull hnt hi hcr hlen ht =>
      obtain ⟨r, hr, rfl⟩ := hcr
      rw [List.length_append, hr, b2] at hl'
      omega
    | trim hfull hnt => rw [hdue] at hnt; cases hnt
  · exact ⟨s', h1, openAt_bad h2⟩

/-- **C07**, end to end: on a fresh store with 64-byte pages, `put` of a 200-byte value returns `Ok` and is readable;
the background thread dies on it, and no later process can open the directory, whatever page size it has. -/
theorem C07_refuted : ∃ s rs, fresh64 (fullPut "k" 6 (List.replicate 200 7)) = some (s, rs) ∧ rs = [.ok ()] ∧
    s.getAs "k" Ty.byteArray.token (Out.ok : Bytes → Out Bytes) = .ok (List.replicate 200 7) ∧ s.lp.io = .dead ∧
    ∀ page, openAt plain () page s.disk = none := by
  have h : passes (fresh64 (fullPut "k" 6 (List.replicate 200 7))) (fun s rs =>
      decide (rs = [.ok ()] ∧ s.getAs "k" Ty.byteArray.token (Out.ok : Bytes → Out Bytes) = .ok (List.replicate 200 7) ∧ s.lp.io = .dead ∧
        8 ≤ s.disk.length ∧ s.disk.length < beVal (s.disk.take 8) + 8)) = true := by decide +kernel
  obtain ⟨s, rs, h1, h2⟩ := exists_of_passes h
  simp only [decide_eq_true_eq] at h2
  obtain ⟨h2, h3, h4, h5, h6⟩ := h2
  exact ⟨s, rs, h1, h2, h3, h4, openAt_bad ⟨h5, h6⟩⟩

/-- **C07**, what is true: a write completes whenever the record fits the free space plus one page and the file is as the
library writes it (or every record involved is at most a page long), and the file then shows exactly the mutation added.
Missing from C07: larger records (`C07_refuted_append`). -/
theorem C07_partial {s : WState} {items : List (Option Buffer)} (h : AtRest s items) {m : Mutation}
    (hm : Recorded m) (hsz : Sizes s items m) {order : Order} (ho : ∀ l, (order l).Perm l) (dup : Bool) {S : Store}
    (hS : FileShows s.file S)
    (hfit : (Canonical s.file ∧ 8 + header s.file + (recordOf m).length ≤ s.file.length + s.page) ∨
      (RecordsFit s.page s.file ∧ (recordOf m).length ≤ s.page)) :
    ∃ s' items', WState.write crcCodec order (bufOf m) dup s = .done s' ∧ AtRest s' items' ∧ FileShows s'.file (S.apply m) := by
  rcases C07_saved_or_destroyed h hm hsz ho dup hS with h1 | ⟨s', h1, _⟩
  · exact h1
  · exfalso
    obtain ⟨content, hv, hc⟩ := h.valid
    obtain ⟨b1, b2, b3⟩ := hm.buf
    obtain ⟨z1, z2, z3⟩ := hsz
    have hall : RecordsFit s.page s.file → (recordOf m).length ≤ s.page →
        ∀ b', some b' ∈ items ++ [some (bufOf m)] → crcLen b' ≤ s.page := by
      intro hf hl b' hb'
      simp only [List.mem_append, List.mem_singleton] at hb'
      rcases hb' with hb' | hb'
      · rw [crcLen_eq]; exact hf items h.reads b' hb'
      · injection hb' with hb'; subst hb'; omega
    have hfits : Fits crcLen (bufOf m) s content items := by
      rcases hfit with ⟨h1, h2⟩ | ⟨h1, h2⟩
      · right
        refine ⟨?_, by rw [b2]; omega⟩
        rw [recSum_eq]
        have := (h1 items h.reads).2
        unfold header at hc
        omega
      · exact .inl (hall h1 h2)
    obtain ⟨s2, _, _, h2, _⟩ := write_core crc_lawful order ho (bufOf m) dup hv h.disk (by
        intro b' hb'
        simp only [List.mem_append, List.mem_singleton] at hb'
        rcases hb' with hb' | hb'
        · have := z1 b' hb'
          rw [← crcLen_eq] at this
          exact this
        · injection hb' with hb'; subst hb'; exact b3)
      hfits (by rw [b2, ← hc]; exact z3) (fun _ => by rw [b2, recSum_eq]; exact z2) trivial
    rw [h1] at h2
    cases h2

/-- A state that meets the hypotheses: the writer of `demoEvs`-like history, two records in a 64-byte file. -/
def demoRest : WState :=
  { file := fileOf [recordOf (.put "a" ⟨2, [1]⟩), recordOf (.put "b" ⟨2, [0]⟩)] (zeros 30), mmLen := 64, page := 64,
    position := 2, needTrim := false }

theorem demoRest_atRest : AtRest demoRest [some ⟨"a", 2, [1]⟩, some ⟨"b", 2, [0]⟩] :=
  ⟨by decide +kernel, by decide +kernel, rfl, rfl, rfl⟩

theorem demoRest_sizes (m : Mutation) (h : (recordOf m).length < 2 ^ 32) : Sizes demoRest [some ⟨"a", 2, [1]⟩, some ⟨"b", 2, [0]⟩] m := by
  have h1 : header demoRest.file = 26 := by decide +kernel
  have h2 : ((([some ⟨"a", 2, [1]⟩, some ⟨"b", 2, [0]⟩] : List (Option Buffer)).filterMap id).map fun b => recordSize b.key b.type b.value).sum = 26 := by
    decide +kernel
  refine ⟨?_, by omega, by omega⟩
  have : ∀ b ∈ [(⟨"a", 2, [1]⟩ : Buffer), ⟨"b", 2, [0]⟩], recordSize b.key b.type b.value < 2 ^ 32 := by decide +kernel
  intro b hb
  apply this
  simpa using hb

/-- The hypotheses of `C07_refuted_append` and `C07_partial` at `demoRest`: a 120-byte and a 40-byte value. -/
example : (Recorded (.put "c" ⟨6, List.replicate 120 9⟩) ∧
      demoRest.file.length + demoRest.page < 8 + header demoRest.file + (recordOf (.put "c" ⟨6, List.replicate 120 9⟩)).length) ∧
    (Recorded (.put "c" ⟨6, List.replicate 40 9⟩) ∧
      8 + header demoRest.file + (recordOf (.put "c" ⟨6, List.replicate 40 9⟩)).length ≤ demoRest.file.length + demoRest.page ∧
      demoRest.file.length < 8 + header demoRest.file + (recordOf (.put "c" ⟨6, List.replicate 40 9⟩)).length) := by
  refine ⟨⟨⟨by decide, by decide +kernel⟩, by decide +kernel⟩, ⟨by decide, by decide +kernel⟩, by decide +kernel, by decide +kernel⟩

/-! ### C13, C14 -/

/-- **C13.** Whenever a write has to compact the file (the record does not fit and some key has been written before) and
completes, the map read back from the file is the map before with the new mutation, for every order in which the hash
map yields its values.  (`C07_partial` says when it completes.) -/
theorem C13_compaction_preserves {s s' : WState} {items : List (Option Buffer)} (h : AtRest s items) {m : Mutation}
    (hm : Recorded m) (hsz : Sizes s items m) {order : Order} (ho : ∀ l, (order l).Perm l) (dup : Bool) {S : Store}
    (hS : FileShows s.file S)
    (_hfull : s.file.length < 8 + header s.file + (recordOf m).length) (_hdue : (s.needTrim || dup) = true)
    (hdone : WState.write crcCodec order (bufOf m) dup s = .done s') :
    FileShows s'.file (S.apply m) ∧ ∃ items', AtRest s' items' := by
  rcases C07_saved_or_destroyed h hm hsz ho dup hS with ⟨s2, items', h1, h2, h3⟩ | ⟨s2, h1, _⟩
  · rw [hdone] at h1; injection h1 with h1; subst h1; exact ⟨h3, items', h2⟩
  · rw [hdone] at h1; cases h1

/-- **C14.** After a compaction the file is exactly one record for each live key, in some order: no tombstone, no
superseded value, no undecodable record, nothing else. -/
theorem C14_one_record_per_key {s s' : WState} {items : List (Option Buffer)} (h : AtRest s items) {m : Mutation}
    (hm : Recorded m) (hsz : Sizes s items m) {order : Order} (ho : ∀ l, (order l).Perm l) (dup : Bool) {S : Store}
    (hS : FileShows s.file S)
    (hfull : s.file.length < 8 + header s.file + (recordOf m).length) (hdue : (s.needTrim || dup) = true)
    (hdone : WState.write crcCodec order (bufOf m) dup s = .done s') :
    ∃ bs : List Buffer, fileRecords crcCodec s'.file = some (bs.map some) ∧
      (bs.map (·.key)).Nodup ∧ (∀ b ∈ bs, b.type ≠ deletedToken) ∧
      (∀ k e, (S.apply m) k = some e ↔ ∃ b ∈ bs, b.key = k ∧ ⟨b.type, b.value⟩ = e) ∧
      header s'.file = (bs.map fun b => recordSize b.key b.type b.value).sum := by
  obtain ⟨b1, b2, b3⟩ := hm.buf
  rcases write_cases h hm hsz ho dup with ⟨s2, content, content', items', hv, hc, h1, h2, h3, h4, h5⟩ | ⟨s2, h1, _⟩
  · rw [hdone] at h1
    injection h1 with h1
    subst h1
    have hr := atRest_of_valid h2 (by rw [h3.quota, h.disk])
    have hSS := fileShows_unique h.fileShows hS
    subst hSS
    cases h4 with
    | append hfit => rw [b2] at hfit; omega
    | expand _ hnt => rw [hdue] at hnt; cases hnt
    | trim _ _ hi hcl _ _ =>
      have hwf : MapWF (mapStep (intoMap items).1 (some (bufOf m))) := (MapWF.intoMap items).mapStep _
      have hview : view (mapStep (intoMap items).1 (some (bufOf m))) = (Store.empty.run (mutations items)).apply m := by
        rw [view_mapStep_some, view_intoMap, b1]
      generalize mapStep (intoMap items).1 (some (bufOf m)) = mp at *
      have hperm := ho mp.values
      have hkeys : mp.values.map (·.key) = mp.map (·.1) := by
        unfold KvMap.values
        rw [List.map_map]
        apply List.map_congr_left
        intro p hp
        exact (hwf.keyed p.1 p.2 hp).1
      have hmem : ∀ b, b ∈ order mp.values ↔ (b.key, b) ∈ mp := by
        intro b
        rw [hperm.mem_iff]
        unfold KvMap.values
        rw [List.mem_map]
        constructor
        · rintro ⟨⟨k, b'⟩, hp, rfl⟩
          have := (hwf.keyed _ _ hp).1
          subst this
          exact hp
        · intro hp; exact ⟨_, hp, rfl⟩
      refine ⟨order mp.values, by rw [← hi]; exact hr.reads, ?_, ?_, ?_, ?_⟩
      · rw [(hperm.map _).nodup_iff, hkeys]; exact hwf.unique
      · intro b hb
        have := (hwf.keyed _ _ ((hmem b).1 hb)).2
        simpa [Buffer.isDeleting] using this
      · intro k e
        rw [← hview]
        unfold view
        constructor
        · intro hk
          cases hg : KvMap.get mp k with
          | none => rw [hg] at hk; cases hk
          | some b =>
            rw [hg] at hk
            simp only [Option.map_some, Option.some.injEq, Buffer.entry] at hk
            have hin := KvMap.mem_of_get hg
            have hkey := (hwf.keyed _ _ hin).1
            subst hkey
            exact ⟨b, (hmem b).2 hin, rfl, hk⟩
        · rintro ⟨b, hb, rfl, rfl⟩
          rw [KvMap.get_of_mem hwf.unique ((hmem b).1 hb)]
          rfl
      · have e1 : header s'.file = content'.length := h2.holds.header
        rw [e1, hcl, ← sumLen_perm crcLen hperm]
        unfold sumLen
        congr 1
        apply List.map_congr_left
        intro b _
        exact crcLen_eq b
  · rw [hdone] at h1; cases h1

/-- Non-vacuity: at `demoRest`, overwriting `b` with 40 bytes needs a compaction, which completes. -/
example : Recorded (.put "b" ⟨6, List.replicate 40 9⟩) ∧
    demoRest.file.length < 8 + header demoRest.file + (recordOf (.put "b" ⟨6, List.replicate 40 9⟩)).length ∧
    (WState.write crcCodec idOrder (bufOf (.put "b" ⟨6, List.replicate 40 9⟩)) true demoRest).isDone = true := by
  refine ⟨⟨by decide, by decide +kernel⟩, by decide +kernel, by decide +kernel⟩

/-! ### C16 -/

/-- **C16**, one write on any state whose mapping covers the file - any content, record, hash map order, amount of disk -
whether it completes or panics: the file grows by a whole number of pages, possibly none; if the record fits, none. -/
theorem C16_whole_pages (order : Order) (b : Buffer) (dup : Bool) {s : WState} (h : s.mmLen = s.file.length) :
    (∃ n, (WState.write crcCodec order b dup s).state.file.length = s.file.length + n * s.page) ∧
    (8 + header s.file + recordSize b.key b.type b.value ≤ s.file.length →
      (WState.write crcCodec order b dup s).state.file.length = s.file.length) := by
  constructor
  · obtain ⟨n, hn⟩ := grown_write (c := crcCodec) order b dup h
    exact ⟨n, hn.len⟩
  · intro hfit
    cases ho : s.writeOffset with
    | none =>
      unfold WState.write
      simp only [crcCodec, crcEnc, ho, Run.state_panic]
    | some off =>
      have hoff : off = header s.file + 8 := by
        unfold WState.writeOffset WState.lenOffset at ho
        by_cases h1 : s.mmLen < 8
        · rw [if_pos h1] at ho; cases ho
        rw [if_neg h1] at ho
        by_cases h2 : s.usizeBytes ≠ 8
        · rw [if_pos h2] at ho; cases ho
        rw [if_neg h2] at ho
        simp only [] at ho
        split at ho
        · injection ho with ho; exact ho.symm
        · cases ho
      have := (grown_write_fits (c := crcCodec) order b dup h (data := record b) (off := off)
        (by simp [crcCodec, crcEnc, record]) ho (by rw [record_length]; omega)).len
      simpa using this

/-- **C16**, a record that does not fit when no compaction is due: exactly one page more. -/
theorem C16_one_page (order : Order) (b : Buffer) {s : WState} {items : List (Option Buffer)} (h : AtRest s items)
    (hfull : s.file.length < 8 + header s.file + recordSize b.key b.type b.value) (hdue : s.needTrim = false) :
    (WState.write crcCodec order b false s).state.file.length = s.file.length + s.page := by
  obtain ⟨content, hv, hc⟩ := h.valid
  have ho := writeOffset_eq hv.usz hv.mm hv.holds
  rcases grown_write_expand (c := crcCodec) order b h.mapped (data := record b)
      (by simp [crcCodec, crcEnc, record]) ho (by rw [record_length]; omega) hdue with ⟨_, hg⟩ | ⟨hd, _⟩
  · simpa using hg.len
  · unfold WState.expand at hd
    simp [h.disk] at hd

/-- Non-vacuity: both hypotheses at `demoRest`. -/
example : 8 + header demoRest.file + recordSize "c" 2 [1] ≤ demoRest.file.length ∧
    demoRest.file.length < 8 + header demoRest.file + recordSize "c" 6 (List.replicate 40 9) ∧ demoRest.needTrim = false := by
  refine ⟨by decide +kernel, by decide +kernel, rfl⟩

/-- Invariant of a history without `clear_data`. -/
structure Growing {ι : Type} (len page : Nat) (s : Inst ι) : Prop where
  phase : s.phase = .idle ∨ s.phase = .send ∨ s.phase = .closed ∨ ∃ b d, s.phase = .push (.write b d)
  jobs : ∀ j, j ∈ s.lp.queue ∨ j ∈ s.lp.buf → j ≠ .remove
  kept : s.lp.cb.removed = false
  mapped : s.lp.cb.ws.mmLen = s.lp.cb.ws.file.length
  paged : s.lp.cb.ws.page = page
  grown : ∃ n, s.lp.cb.ws.file.length = len + n * page

theorem growing_io {ι : Type} {codecs : ι → Codec} {len page : Nat} {s s' : Inst ι} {o : Order} {r : Option (Out Unit)}
    (h : Growing len page s) (hs : step codecs s (.io o) = some (s', r)) : Growing len page s' := by
  simp only [step] at hs
  split at hs
  · cases hs
  · rename_i lp hio
    injection hs with hs; injection hs with h1 h2; subst h1
    unfold Looper.ioStep at hio
    split at hio
    · split at hio
      · injection hio with hio; subst hio; exact ⟨h.phase, h.jobs, h.kept, h.mapped, h.paged, h.grown⟩
      · injection hio with hio; subst hio; exact ⟨h.phase, h.jobs, h.kept, h.mapped, h.paged, h.grown⟩
      · split at hio
        · cases hio
        · injection hio with hio; subst hio; exact ⟨h.phase, h.jobs, h.kept, h.mapped, h.paged, h.grown⟩
    · injection hio with hio; subst hio
      exact ⟨h.phase, fun j hj => h.jobs j hj.symm, h.kept, h.mapped, h.paged, h.grown⟩
    · split at hio
      · injection hio with hio; subst hio; exact ⟨h.phase, h.jobs, h.kept, h.mapped, h.paged, h.grown⟩
      · rename_i j rest hbuf
        have hj : j ≠ .remove := h.jobs j (.inr (by rw [hbuf]; exact List.mem_cons_self))
        have hjobs : ∀ j', j' ∈ s.lp.queue ∨ j' ∈ rest → j' ≠ .remove := by
          intro j' hj'
          refine h.jobs j' (hj'.imp id fun hr => ?_)
          rw [hbuf]; exact List.mem_cons_of_mem _ hr
        have hcb : ∀ cb, (execJob (codecs s.idx) o j s.lp.cb = .done cb ∨ execJob (codecs s.idx) o j s.lp.cb = .panic cb) →
            cb.removed = false ∧ cb.ws.mmLen = cb.ws.file.length ∧ cb.ws.page = page ∧ ∃ n, cb.ws.file.length = len + n * page := by
          intro cb hcb
          cases j with
          | remove => exact absurd rfl hj
          | write b dup =>
            obtain ⟨n, hg⟩ := grown_write (c := codecs s.idx) o b dup h.mapped
            obtain ⟨n0, hn0⟩ := h.grown
            have hlen := hg.len
            rw [hn0, h.paged] at hlen
            have hpg := hg.conf.page
            rw [h.paged] at hpg
            have hmm := hg.mm
            have hfin : ∀ ws, WState.write (codecs s.idx) o b dup s.lp.cb.ws = .done ws ∨
                WState.write (codecs s.idx) o b dup s.lp.cb.ws = .panic ws → ws.mmLen = ws.file.length ∧ ws.page = page ∧
                  ∃ n, ws.file.length = len + n * page := by
              intro ws hws
              have hst : (WState.write (codecs s.idx) o b dup s.lp.cb.ws).state = ws := by
                rcases hws with hws | hws <;> rw [hws] <;> rfl
              rw [hst] at hlen hpg hmm
              exact ⟨hmm, hpg, n0 + n, by rw [hlen, Nat.add_mul]; omega⟩
            simp only [execJob] at hcb
            cases hw : WState.write (codecs s.idx) o b dup s.lp.cb.ws with
            | done ws =>
              obtain ⟨f1, f2, f3⟩ := hfin ws (.inl hw)
              simp only [hw] at hcb
              rcases hcb with hcb | hcb
              · injection hcb with hcb; subst hcb; exact ⟨h.kept, f1, f2, f3⟩
              · cases hcb
            | panic ws =>
              obtain ⟨f1, f2, f3⟩ := hfin ws (.inr hw)
              simp only [hw] at hcb
              rcases hcb with hcb | hcb
              · cases hcb
              · injection hcb with hcb; subst hcb; exact ⟨h.kept, f1, f2, f3⟩
        cases he : execJob (codecs s.idx) o j s.lp.cb with
        | done cb =>
          simp only [he] at hio
          injection hio with hio; subst hio
          obtain ⟨g1, g2, g3, g4⟩ := hcb cb (.inl he)
          exact ⟨h.phase, hjobs, g1, g2, g3, g4⟩
        | panic cb =>
          simp only [he] at hio
          injection hio with hio; subst hio
          obtain ⟨g1, g2, g3, g4⟩ := hcb cb (.inr he)
          exact ⟨h.phase, hjobs, g1, g2, g3, g4⟩
    · injection hio with hio; subst hio; exact ⟨h.phase, h.jobs, h.kept, h.mapped, h.paged, h.grown⟩
    · cases hio
    · cases hio

theorem growing_step {ι : Type} {codecs : ι → Codec} {len page : Nat} {s s' : Inst ι} {e : Ev ι} {r : Option (Out Unit)}
    (he : e ≠ .clear) (h : Growing len page s) (hs : step codecs s e = some (s', r)) : Growing len page s' := by
  cases e with
  | clear => exact absurd rfl he
  | io o => exact growing_io h hs
  | put k t bs =>
    simp only [step] at hs
    split at hs
    · cases hs
    split at hs
    · injection hs with hs; injection hs with h1 h2; subst h1; exact h
    split at hs
    · injection hs with hs; injection hs with h1 h2; subst h1; exact h
    · injection hs with hs; injection hs with h1 h2; subst h1
      exact ⟨.inr (.inr (.inr ⟨_, _, rfl⟩)), h.jobs, h.kept, h.mapped, h.paged, h.grown⟩
  | delete k =>
    simp only [step] at hs
    split at hs
    · cases hs
    split at hs
    · injection hs with hs; injection hs with h1 h2; subst h1; exact h
    split at hs
    · injection hs with hs; injection hs with h1 h2; subst h1; exact h
    split at hs
    · injection hs with hs; injection hs with h1 h2; subst h1; exact h
    · injection hs with hs; injection hs with h1 h2; subst h1
      exact ⟨.inr (.inr (.inr ⟨_, _, rfl⟩)), h.jobs, h.kept, h.mapped, h.paged, h.grown⟩
  | drop =>
    simp only [step] at hs
    split at hs
    · cases hs
    · injection hs with hs; injection hs with h1 h2; subst h1
      exact ⟨.inr (.inr (.inl rfl)), h.jobs, h.kept, h.mapped, h.paged, h.grown⟩
  | api i =>
    simp only [step] at hs
    rcases h.phase with hp | hp | hp | ⟨b, d, hp⟩ <;> simp only [hp] at hs
    · cases hs
    · injection hs with hs; injection hs with h1 h2; subst h1
      refine ⟨.inl rfl, ?_, ?_, ?_, ?_, ?_⟩ <;> unfold Looper.send <;> split <;> (try split) <;>
        first | exact h.jobs | exact h.kept | exact h.mapped | exact h.paged | exact h.grown
    · cases hs
    · injection hs with hs; injection hs with h1 h2; subst h1
      have hj : ∀ j, j ∈ s.lp.queue ++ [Job.write b d] ∨ j ∈ s.lp.buf → j ≠ .remove := by
        intro j hj
        rcases hj with hj | hj
        · rcases List.mem_append.1 hj with hj | hj
          · exact h.jobs j (.inl hj)
          · simp at hj; subst hj; simp
        · exact h.jobs j (.inr hj)
      refine ⟨.inr (.inl rfl), ?_, ?_, ?_, ?_, ?_⟩ <;> unfold Looper.push <;> split <;>
        first | exact hj | exact h.kept | exact h.mapped | exact h.paged | exact h.grown

/-- **C16** over a whole session, encrypted or not: as long as `clear_data` is not called, the data file is as long as it
was when opened (one page if it was missing or empty) plus a whole number of pages - after every history, under every
schedule, also when writes failed. -/
theorem C16_session {ι : Type} {codecs : ι → Codec} {i : ι} {page : Nat} {file : Bytes} {u : Nat} {q : Option Nat}
    {s0 s : Inst ι} (hopen : openAt codecs i page file u q = some s0) (es : List (Ev ι)) (hes : ∀ e ∈ es, e ≠ .clear)
    {rs : List (Out Unit)} (hrun : run codecs s0 es = some (s, rs)) :
    ∃ n, s.disk.length = (if file.length = 0 then page else file.length) + n * page := by
  have hg0 : Growing (if file.length = 0 then page else file.length) page s0 := by
    unfold openAt at hopen
    split at hopen
    · cases hopen
    · rename_i o ho
      injection hopen with hopen
      subst hopen
      unfold openStore at ho
      simp only [] at ho
      split at ho
      · cases ho
      · split at ho
        · cases ho
        · injection ho with ho
          subst ho
          refine ⟨.inl rfl, by simp [Looper.new], rfl, rfl, rfl, 0, ?_⟩
          simp only [Looper.new, configNew]
          split <;> simp [zeros]
  have hg : Growing (if file.length = 0 then page else file.length) page s := by
    clear hopen
    induction es generalizing s0 rs with
    | nil => simp only [run, Option.some.injEq, Prod.mk.injEq] at hrun; obtain ⟨rfl, _⟩ := hrun; exact hg0
    | cons e es ih =>
      unfold run at hrun
      split at hrun
      · cases hrun
      · rename_i s1 r hstep
        split at hrun
        · cases hrun
        · rename_i s2 rs2 hrun2
          simp only [Option.some.injEq, Prod.mk.injEq] at hrun
          obtain ⟨rfl, _⟩ := hrun
          exact ih (fun e he => hes e (List.mem_cons_of_mem _ he)) hrun2 (growing_step (hes e List.mem_cons_self) hg0 hstep)
  obtain ⟨n, hn⟩ := hg.grown
  exact ⟨n, by simp [disk, hg.kept, hn]⟩

/-- Non-vacuity: a history that grows the file to three pages. -/
example : ∃ s rs, fresh64 (fullPut "a" 6 (List.replicate 30 1) ++ fullPut "b" 6 (List.replicate 50 1) ++ fullPut "c" 6 (List.replicate 50 1)) =
    some (s, rs) ∧ s.disk.length = 64 + 2 * 64 := by
  have h : passes (fresh64 (fullPut "a" 6 (List.replicate 30 1) ++ fullPut "b" 6 (List.replicate 50 1) ++ fullPut "c" 6 (List.replicate 50 1)))
      (fun s _ => decide (s.disk.length = 64 + 2 * 64)) = true := by decide +kernel
  obtain ⟨s, rs, h1, h2⟩ := exists_of_passes h
  exact ⟨s, rs, h1, by simpa using h2⟩

/-! ### C17 -/

/-- How many of the records `bs`, laid out from byte 8 on, end past `len`. -/
def endingPast (len : Nat) (bs : List Buffer) : Nat :=
  ((List.range bs.length).filter fun n => decide (len < 8 + ((bs.take (n + 1)).map fun b => recordSize b.key b.type b.value).sum)).length

theorem overflows_eq (maxLen : Nat) : ∀ (bs : List Buffer) (off : Nat), overflows crcLen maxLen off bs =
    ((List.range bs.length).filter fun n => decide (maxLen < off + ((bs.take (n + 1)).map fun b => recordSize b.key b.type b.value).sum)).length
  | [], off => rfl
  | b :: bs, off => by
    have hcomp : ((fun n => decide (maxLen < off + (((b :: bs).take (n + 1)).map fun b => recordSize b.key b.type b.value).sum)) ∘ Nat.succ) =
        fun n => decide (maxLen < off + crcLen b + ((bs.take (n + 1)).map fun b => recordSize b.key b.type b.value).sum) := by
      funext n
      simp only [Function.comp, List.take_succ_cons, List.map_cons, List.sum_cons, ← crcLen_eq b, Nat.add_assoc]
    have h0 : (((b :: bs).take (0 + 1)).map fun b => recordSize b.key b.type b.value).sum = crcLen b := by
      simp [crcLen_eq]
    rw [overflows, overflows_eq maxLen bs, List.length_cons, List.range_succ_eq_map, List.filter_cons, List.filter_map, hcomp, h0]
    by_cases h : off + crcLen b > maxLen
    · have h' : maxLen < off + crcLen b := h
      simp [h']; omega
    · have h' : ¬ maxLen < off + crcLen b := h
      simp [h']

theorem overflows_none (maxLen : Nat) : ∀ (bs : List Buffer) (off : Nat), off + sumLen crcLen bs ≤ maxLen → overflows crcLen maxLen off bs = 0
  | [], _, _ => rfl
  | b :: bs, off, h => by
    rw [sumLen_cons] at h
    rw [overflows, if_neg (by omega), overflows_none maxLen bs _ (by omega)]

/-- **C17**, what is true: a completed write leaves the file alone if the record fits; adds one page if no compaction is
due; and a compaction adds one page for every rewritten record that ends past the old end of the file.  In particular a
compaction whose result fits the file does not grow it.  Missing from C17: when several records end past the old end,
the file grows by as many pages although one may do (`C17_refuted`). -/
theorem C17_growth_partial {s s' : WState} {items : List (Option Buffer)} (h : AtRest s items) {m : Mutation}
    (hm : Recorded m) (hsz : Sizes s items m) {order : Order} (ho : ∀ l, (order l).Perm l) (dup : Bool)
    (hdone : WState.write crcCodec order (bufOf m) dup s = .done s') :
    (8 + header s.file + (recordOf m).length ≤ s.file.length → s'.file.length = s.file.length) ∧
    (s.file.length < 8 + header s.file + (recordOf m).length → (s.needTrim || dup) = false → s'.file.length = s.file.length + s.page) ∧
    (s.file.length < 8 + header s.file + (recordOf m).length → (s.needTrim || dup) = true →
      (∃ bs, fileRecords crcCodec s'.file = some (bs.map some) ∧
        s'.file.length = s.file.length + endingPast s.file.length bs * s.page) ∧
      (8 + header s'.file ≤ s.file.length → s'.file.length = s.file.length)) := by
  obtain ⟨b1, b2, b3⟩ := hm.buf
  rcases write_cases h hm hsz ho dup with ⟨s2, content, content', items', hv, hc, h1, h2, h3, h4, h5⟩ | ⟨s2, h1, _⟩
  · rw [hdone] at h1
    injection h1 with h1
    subst h1
    have hr := atRest_of_valid h2 (by rw [h3.quota, h.disk])
    cases h4 with
    | append hfit hi hcr hl ht =>
      rw [b2] at hfit
      exact ⟨fun _ => hl, fun hf => by omega, fun hf => by omega⟩
    | expand hfull hnt hi hcr hl ht =>
      rw [b2] at hfull
      exact ⟨fun hf => by omega, fun _ _ => hl, fun _ hd => by rw [hnt] at hd; cases hd⟩
    | trim hfull hnt hi hcr hl ht =>
      rw [b2] at hfull
      refine ⟨fun hf => by omega, fun _ hd => (by rw [hnt] at hd; cases hd), fun _ _ => ⟨⟨_, by rw [← hi]; exact hr.reads, ?_⟩, ?_⟩⟩
      · rw [hl, overflows_eq]; rfl
      · intro hfit
        have e1 : header s'.file = content'.length := h2.holds.header
        rw [hl, overflows_none]
        · omega
        · rw [sumLen_perm crcLen (ho _), ← hcr, ← e1]; exact hfit
  · rw [hdone] at h1; cases h1

/-- **C17 is false**: with 64-byte pages, after `put a; put a; put big`, the background write of `big` compacts the file
and makes it 192 bytes long, although 64 bytes were there before and the content needs only 82, so that 128 would do. -/
theorem C17_refuted : ∃ (es : List (Ev Unit)) (s s' : Inst Unit) (rs : List (Out Unit)) (o : Order), fresh64 es = some (s, rs) ∧
    (∀ e ∈ es, e.Fits 64) ∧ (∀ l, (o l).Perm l) ∧ step plain s (.io o) = some (s', none) ∧
    s.disk.length = 64 ∧ 8 + header s'.disk = 82 ∧ s'.disk.length = 192 := by
  have h : passes (fresh64 (fullPut "a" 2 [1] ++ fullPut "a" 2 [0] ++ [.put "b" 6 (List.replicate 49 1), .api (), .api (), .io idOrder, .io idOrder]))
      (fun s rs => match step plain s (.io idOrder) with
        | some (s', none) => decide (s.disk.length = 64 ∧ 8 + header s'.disk = 82 ∧ s'.disk.length = 192)
        | _ => false) = true := by decide +kernel
  obtain ⟨s, rs, h1, h2⟩ := exists_of_passes h
  split at h2
  · rename_i s' hs
    simp only [decide_eq_true_eq] at h2
    refine ⟨_, s, s', rs, idOrder, h1, ?_, fun l => List.Perm.refl l, hs, h2⟩
    intro e he
    simp only [fullPut, List.cons_append, List.nil_append, List.mem_cons, List.not_mem_nil, or_false] at he
    have hput : ∀ k t bs, recordSize k t bs ≤ 64 → (Ev.put k t bs : Ev Unit).Fits 64 := fun k t bs h => h
    repeat' rcases he with rfl | he
    all_goals first
      | (apply hput; decide +kernel)
      | exact fun l => List.reverse_perm l
      | exact fun l => List.Perm.refl l
      | trivial
      | (rw [he]; exact fun l => List.Perm.refl l)
  · cases h2

end Mmkv
