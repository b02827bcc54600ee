import Verif.Props.Memory
/-!
# What survives: C06, C10, C15, C22, C26 and the "after reopen" parts of C02, C04, C05, C44

All for the plain store with records of at most one page (`Ev.Fits`); the encrypted store is in `Verif/Props/Encrypt.lean`,
larger records in `Verif/Props/Size.lean`.
-/

namespace Mmkv
open Spec Inst

/-- The calls of several sessions, in order. -/
def allCalls {ι : Type} (xs : List (Session ι)) : List Mutation := (xs.map fun x => calls x.evs).flatten

theorem shows_of_view {ι : Type} {codecs : ι → Codec} {i : ι} {page : Nat} {file : Bytes} {s : Inst ι} {S : Store}
    (h : openAt codecs i page file = some s) (hv : view s.kv = S) : s.Shows S := (shows_open h).2 hv

/-! ### A computable version of `Life`, for examples -/

/-- Runs sessions of the plain store one after the other. -/
def lifeRun (page : Nat) : Bytes → List (Session Unit) → Option (List (List (Out Unit)) × Bytes)
  | file, [] => some ([], file)
  | file, x :: xs =>
    match openAt plain x.i page file with
    | none => none
    | some s => match run plain s x.evs with
      | none => none
      | some (s', rs) =>
        if x.clean = true ∧ ¬ (s'.phase = .closed ∧ s'.lp.io = .exited) then none
        else (lifeRun page s'.disk xs).map fun (rss, f) => (rs :: rss, f)

theorem life_of_lifeRun {page : Nat} : ∀ (xs : List (Session Unit)) (d : Dir Unit) (rss : List (List (Out Unit))) (f : Bytes),
    lifeRun page d.file xs = some (rss, f) → ∃ d', Life plain page d xs rss d' ∧ d'.file = f := by
  intro xs
  induction xs with
  | nil =>
    intro d rss f h
    simp only [lifeRun, Option.some.injEq, Prod.mk.injEq] at h
    obtain ⟨rfl, rfl⟩ := h
    exact ⟨d, .nil d, rfl⟩
  | cons x xs ih =>
    intro d rss f h
    unfold lifeRun at h
    split at h
    · cases h
    · rename_i s hs
      split at h
      · cases h
      · rename_i s' rs hr
        split at h
        · cases h
        · rename_i hc
          cases hrec : lifeRun page s'.disk xs with
          | none => simp [hrec] at h
          | some p =>
            simp only [hrec, Option.map_some, Option.some.injEq, Prod.mk.injEq] at h
            obtain ⟨rfl, rfl⟩ := h
            obtain ⟨d', hl, hd⟩ := ih s'.dir p.1 p.2 hrec
            refine ⟨d', .cons (fun j _ => rfl) hs hr ?_ hl, hd⟩
            intro hx
            unfold closedOk
            exact Classical.byContradiction fun hn => hc ⟨hx, hn⟩

/-! ### C06 -/

/-- **C06.** Any number of sessions on a fresh directory, each any history of puts, deletes and clears with any
interleaving of the background thread and any hash map orders, each closed by dropping the last handle: every call
returned `Ok`, and opening again shows exactly the plain map of all the calls. -/
theorem C06_close_reopen {page : Nat} (h8 : 8 ≤ page) (h32 : page < 2 ^ 32) {xs : List (Session Unit)}
    {rss : List (List (Out Unit))} {d : Dir Unit} (hl : Life plain page Dir.fresh xs rss d)
    (hfit : ∀ x ∈ xs, ∀ e ∈ x.evs, e.Fits page) (hclean : ∀ x ∈ xs, x.clean = true)
    (hroom : page * callCount xs + 8 < 2 ^ 64) :
    (∀ rs ∈ rss, ∀ r ∈ rs, r = .ok ()) ∧
      ∃ s, openAt plain () page d.file = some s ∧ s.Shows (Store.empty.run (allCalls xs)) := by
  obtain ⟨hr, S, hS, hg⟩ := life_survives (E := plainEnv page h8 False) (K := 0) hl (goodDir_fresh _ 0)
    (fun x hx e he => (hfit x hx e he).ok h32) (by rw [Nat.zero_add]; exact plain_room hroom)
  refine ⟨hr, ?_⟩
  obtain ⟨s, hs, hv⟩ := openAt_goodDir hg () (fun _ _ => rfl)
  refine ⟨s, hs, shows_of_view hs ?_⟩
  rw [hv, survives_clean hS]
  · simp [sessionCalls, allCalls, Function.comp_def]
  · intro p hp
    simp only [sessionCalls, List.mem_map] at hp
    obtain ⟨x, hx, rfl⟩ := hp
    exact hclean x hx

/-- The records of a data file, as a reader from the start finds them (`none`: reading panics). -/
def fileRecords (c : Codec) (file : Bytes) : Option (List (Option Buffer)) :=
  ({ file, mmLen := file.length, page := 0, position := 0, needTrim := false } : WState).readItems c

theorem framed_length {c : Codec} {pos : Nat} {content : Bytes} {items : List (Option Buffer)}
    (h : Framed c pos content items) : items.length ≤ content.length := by
  induction h with
  | nil => simp
  | cons pos chunk content ob items hne _ _ ih =>
    have : 0 < chunk.length := List.length_pos_iff.2 hne
    simp only [List.length_cons, List.length_append]; omega

theorem readItems_inv {c : Codec} {okB posOk recLen} (hl : LawfulCodec c okB posOk recLen) {s : WState}
    {items : List (Option Buffer)} (hmm : s.mmLen = s.file.length) (h : s.readItems c = some items) :
    s.usizeBytes = 8 ∧ ∃ content, Holds s.file content ∧ Framed c 0 content items := by
  unfold WState.readItems WState.lenOffset at h
  split at h
  · cases h
  · rename_i off hoff
    have hw : 8 ≤ s.mmLen ∧ s.usizeBytes = 8 ∧ beVal (s.file.take 8) + 8 < 2 ^ 64 ∧ off = beVal (s.file.take 8) + 8 := by
      unfold WState.writeOffset WState.lenOffset at hoff
      by_cases h1 : s.mmLen < 8
      · rw [if_pos h1] at hoff; cases hoff
      rw [if_neg h1] at hoff
      by_cases h2 : s.usizeBytes ≠ 8
      · rw [if_pos h2] at hoff; cases hoff
      rw [if_neg h2] at hoff
      simp only [] at hoff
      by_cases h3 : beVal (s.file.take 8) + 8 < 2 ^ 64
      · rw [if_pos h3] at hoff
        injection hoff with hoff
        exact ⟨by omega, by simpa using h2, h3, hoff.symm⟩
      · rw [if_neg h3] at hoff; cases hoff
    obtain ⟨h8, hu, hb, rfl⟩ := hw
    simp only [] at h
    by_cases hz : beVal (s.file.take 8) + 8 ≤ 8
    · rw [if_pos hz] at h
      injection h with h
      subst h
      have hz' : beVal (s.file.take 8) = 0 := by omega
      have hh := Holds.of_header (file := s.file) (by omega) (by omega) hb
      rw [hz'] at hh
      refine ⟨hu, [], ?_, .nil _⟩
      simpa using hh
    · rw [if_neg hz] at h
      by_cases hm : s.mmLen < beVal (s.file.take 8) + 8
      · rw [if_pos hm] at h; cases h
      · rw [if_neg hm] at h
        exact ⟨hu, _, Holds.of_header (by omega) (by omega) hb, framed_of_iter hl _ _ _ _ h⟩

/-- The records in a file are as this program writes them, whatever the page size then was: re-encoded, the decodable
ones take no more room than they do in the file.  (A record written by other means may be shorter than its
re-encoding: a negative type token fits five bytes of protobuf but the library writes ten.) -/
def Canonical (file : Bytes) : Prop :=
  ∀ items, fileRecords crcCodec file = some items → (∀ b, some b ∈ items → recordSize b.key b.type b.value < 2 ^ 32) ∧
    ((items.filterMap id).map fun b => recordSize b.key b.type b.value).sum ≤ beVal (file.take 8)

/-- Every decodable record of the file fits a page. -/
def RecordsFit (page : Nat) (file : Bytes) : Prop :=
  ∀ items, fileRecords crcCodec file = some items → ∀ b, some b ∈ items → recordSize b.key b.type b.value ≤ page

/-- A plain file that opens, and whose records fit a page or are as the library writes them, is good. -/
theorem goodFile_of_open {page : Nat} {h8 : 8 ≤ page} {file : Bytes} {s : Inst Unit} {h32 : page < 2 ^ 32}
    (h : openAt plain () page file = some s)
    (hfit : RecordsFit page file ∨ Canonical file) :
    GoodFile (plainEnv page h8 True) crcCodec file.length file (view s.kv) := by
  by_cases hne : file = []
  · subst hne
    unfold openAt at h
    split at h
    · cases h
    · rename_i o ho
      injection h with h
      subst h
      rw [openStore_nil_kv ho, view_nil]
      exact .empty
  · unfold openAt at h
    split at h
    · cases h
    · rename_i o ho
      injection h with h
      subst h
      unfold openStore at ho
      have hlen : file.length ≠ 0 := by simpa using hne
      simp only [configNew, hlen, if_false] at ho
      split at ho
      · cases ho
      · rename_i items hi
        injection ho with ho
        subst ho
        obtain ⟨_, content, hh, hf⟩ := readItems_inv crc_lawful rfl hi
        have hi' : fileRecords crcCodec file = some items := by
          unfold fileRecords; exact hi
        have hl : content.length + 8 ≤ file.length := hh.len
        have hh : Holds file content := hh
        show GoodFile _ _ _ _ (view (intoMap items).1)
        rw [view_intoMap]
        have hsum : recSum crcLen items = ((items.filterMap id).map fun b => recordSize b.key b.type b.value).sum := by
          unfold recSum sumLen
          congr 1
          apply List.map_congr_left
          intro b _
          show (kvToBytes b).length + 5 = 4 + (kvToBytes b).length + 1
          omega
        refine .held hh hf ?_ ?_ ?_ ?_ (fun _ => trivial)
        · intro b hb
          simp only [plainEnv, crcOk]
          rcases hfit with hfit | hfit
          · have : 4 + (kvToBytes b).length + 1 ≤ page := hfit items hi' b hb
            omega
          · have : 4 + (kvToBytes b).length + 1 < 2 ^ 32 := (hfit items hi').1 b hb
            omega
        · rcases hfit with hfit | hfit
          · left
            refine ⟨trivial, ?_⟩
            intro b hb
            have : 4 + (kvToBytes b).length + 1 ≤ page := hfit items hi' b hb
            simp only [plainEnv, crcLen]
            omega
          · right
            show recSum crcLen items ≤ _
            rw [hsum, ← hh.header]; exact (hfit items hi').2
        · have := framed_length hf; omega
        · have : page * 1 ≤ page := by omega
          have h1 : 1 * content.length ≤ page * content.length := Nat.mul_le_mul_right _ (by omega)
          have h2 : page * content.length ≤ page * file.length := Nat.mul_le_mul_left _ (by omega)
          simp only [plainEnv]; omega

/-- **C06** from any file that opens (whose records fit a page), whatever wrote it: if the first open shows `S0`, then
after any sessions, closed cleanly, opening again shows `S0` changed by all the calls. -/
theorem C06_from_any_file {page : Nat} (h8 : 8 ≤ page) (h32 : page < 2 ^ 32) {xs : List (Session Unit)}
    {rss : List (List (Out Unit))} {d0 d : Dir Unit} {s0 : Inst Unit} {S0 : Store}
    (hopen : openAt plain () page d0.file = some s0) (h0 : s0.Shows S0)
    (hrec : RecordsFit page d0.file ∨ Canonical d0.file)
    (hl : Life plain page d0 xs rss d)
    (hfit : ∀ x ∈ xs, ∀ e ∈ x.evs, e.Fits page) (hclean : ∀ x ∈ xs, x.clean = true)
    (hroom : page * (d0.file.length + callCount xs) + 8 < 2 ^ 64) :
    (∀ rs ∈ rss, ∀ r ∈ rs, r = .ok ()) ∧
      ∃ s, openAt plain () page d.file = some s ∧ s.Shows (S0.run (allCalls xs)) := by
  have hg0 := goodFile_of_open (h8 := h8) (h32 := h32) hopen hrec
  rw [(shows_open hopen).1 h0] at hg0
  obtain ⟨hr, S, hS, hg⟩ := life_survives (E := plainEnv page h8 True) (K := d0.file.length) hl
    (fun i _ => hg0) (fun x hx e he => (hfit x hx e he).ok h32) (plain_room hroom)
  refine ⟨hr, ?_⟩
  obtain ⟨s, hs, hv⟩ := openAt_goodDir hg () (fun _ _ => rfl)
  refine ⟨s, hs, shows_of_view hs ?_⟩
  rw [hv, survives_clean hS]
  · simp [sessionCalls, allCalls, Function.comp_def]
  · intro p hp
    simp only [sessionCalls, List.mem_map] at hp
    obtain ⟨x, hx, rfl⟩ := hp
    exact hclean x hx

/-- A put whose call steps and background steps all complete. -/
def fullPut (k : String) (t : BitVec 32) (bs : Bytes) : List (Ev Unit) :=
  [.put k t bs, .api (), .api (), .io List.reverse, .io List.reverse, .io List.reverse, .io List.reverse]

/-- Two sessions with 64-byte pages; the first overflows its page twice (one compaction, one expansion). -/
def demoSessions : List (Session Unit) :=
  [⟨(), fullPut "a" 1 [97, 97, 97, 97, 97, 97, 97, 97] ++ fullPut "b" 1 [98, 98, 98, 98, 98, 98] ++
      fullPut "a" 1 [99, 99, 99, 99, 99, 99, 99, 99] ++ fullPut "c" 1 [100, 100, 100, 100, 100, 100, 100, 100] ++
      [.delete "b", .api (), .api (), .drop, .io idOrder, .io idOrder, .io idOrder, .io idOrder, .io idOrder], true⟩,
   ⟨(), [.put "d" 0 [0, 0, 0, 7], .api (), .api (), .drop, .io idOrder, .io idOrder, .io idOrder, .io idOrder, .io idOrder], true⟩]

/-- The demo sessions meet the hypotheses of C06. -/
example : (∃ rss d, Life plain 64 Dir.fresh demoSessions rss d ∧ d.file.length = 128) ∧
    (∀ x ∈ demoSessions, ∀ e ∈ x.evs, e.Fits 64) ∧ (∀ x ∈ demoSessions, x.clean = true) ∧ callCount demoSessions = 6 := by
  refine ⟨?_, ?_, by decide, by decide⟩
  · have h : ((lifeRun 64 [] demoSessions).map fun p => decide (p.2.length = 128)) = some true := by decide +kernel
    cases hr : lifeRun 64 [] demoSessions with
    | none => simp [hr] at h
    | some p =>
      obtain ⟨d', hl, hd⟩ := life_of_lifeRun demoSessions Dir.fresh p.1 p.2 hr
      exact ⟨_, d', hl, by rw [hd]; simpa [hr] using h⟩
  · intro x hx e he
    have hput : ∀ k t bs, (kvToBytes ⟨k, t, bs⟩).length ≤ 59 → (Ev.put k t bs : Ev Unit).Fits 64 := by
      intro k t bs h; simp only [Ev.Fits, recordSize]; omega
    have hdel : ∀ k, (kvToBytes ⟨k, deletedToken, []⟩).length ≤ 59 → (Ev.delete k : Ev Unit).Fits 64 := by
      intro k h; simp only [Ev.Fits, recordSize]; omega
    simp only [demoSessions, fullPut, List.cons_append, List.nil_append, List.mem_cons, List.not_mem_nil, or_false] at hx
    rcases hx with rfl | rfl <;>
    · simp only [List.mem_cons, List.not_mem_nil, or_false] at he
      repeat' rcases he with rfl | he
      all_goals try subst he
      all_goals first
        | trivial
        | (apply hput; decide +kernel)
        | (apply hdel; decide +kernel)
        | exact fun l => List.reverse_perm l
        | exact fun l => List.Perm.refl l

/-! ### C10 -/

/-- **C10.** Any number of sessions on a fresh directory, each ended by a clean close or by the death of the process at
any moment between two background writes: opening again succeeds and shows a plain map in which every session
contributed some first part of its calls, in order (all of them if it was closed cleanly). -/
theorem C10_crash_prefix {page : Nat} (h8 : 8 ≤ page) (h32 : page < 2 ^ 32) {xs : List (Session Unit)}
    {rss : List (List (Out Unit))} {d : Dir Unit} (hl : Life plain page Dir.fresh xs rss d)
    (hfit : ∀ x ∈ xs, ∀ e ∈ x.evs, e.Fits page) (hroom : page * callCount xs + 8 < 2 ^ 64) :
    ∃ S, Survives Store.empty (sessionCalls xs) S ∧ ∃ s, openAt plain () page d.file = some s ∧ s.Shows S := by
  obtain ⟨_, S, hS, hg⟩ := life_survives (E := plainEnv page h8 False) (K := 0) hl (goodDir_fresh _ 0)
    (fun x hx e he => (hfit x hx e he).ok h32) (by rw [Nat.zero_add]; exact plain_room hroom)
  obtain ⟨s, hs, hv⟩ := openAt_goodDir hg () (fun _ _ => rfl)
  exact ⟨S, hS, s, hs, shows_of_view hs hv⟩

/-- **C10** spelled out for one session. -/
theorem C10_one_session {page : Nat} (h8 : 8 ≤ page) (h32 : page < 2 ^ 32) {s0 s : Inst Unit} {es : List (Ev Unit)}
    {rs : List (Out Unit)} (hopen : openAt plain () page [] = some s0) (hrun : run plain s0 es = some (s, rs))
    (hfit : ∀ e ∈ es, e.Fits page) (hroom : page * (calls es).length + 8 < 2 ^ 64) :
    ∃ m ≤ (calls es).length, ∃ s', openAt plain () page s.disk = some s' ∧
      s'.Shows (Store.empty.run ((calls es).take m)) := by
  have hl : Life plain page Dir.fresh [⟨(), es, false⟩] [rs] s.dir :=
    .cons (x := ⟨(), es, false⟩) (fun _ _ => rfl) hopen hrun (by simp) (.nil _)
  obtain ⟨S, hS, s', hs', hsh⟩ := C10_crash_prefix h8 h32 hl (by simpa using hfit) (by simpa [callCount] using hroom)
  cases hS with
  | cons m hm hc h =>
    cases h
    exact ⟨m, hm, s', hs', hsh⟩

/-- Non-vacuity: killed after the first record of three calls has reached the file. -/
example : ∃ s0 s rs, openAt plain () 64 [] = some s0 ∧
    run plain s0 ([.put "a" 0 [0, 0, 0, 1], .api (), .api (), .io idOrder, .io idOrder, .io idOrder, .delete "a", .api (), .api (),
      .put "b" 2 [1]]) = some (s, rs) ∧ rs = [.ok (), .ok ()] ∧ 0 < beVal (s.disk.take 8) := by
  have h : passes (fresh64 [.put "a" 0 [0, 0, 0, 1], .api (), .api (), .io idOrder, .io idOrder, .io idOrder, .delete "a", .api (), .api (),
      .put "b" 2 [1]]) (fun s rs => decide (rs = [.ok (), .ok ()] ∧ 0 < beVal (s.disk.take 8))) = true := by decide +kernel
  obtain ⟨s0, s, rs, h0, h1, h2⟩ := exists_of_fresh64 h
  exact ⟨s0, s, rs, h0, h1, by simpa using h2⟩

/-! ### C15 -/

theorem framed_chunks {c : Codec} {pos : Nat} {content : Bytes} {items : List (Option Buffer)}
    (h : Framed c pos content items) :
    ∃ chunks : List Bytes, content = chunks.flatten ∧
      ∀ n chunk, chunks[n]? = some chunk → ∃ ob, items[n]? = some ob ∧
        ∀ rest, c.dec (chunk ++ rest) (pos + n) = .ok ob chunk.length := by
  induction h with
  | nil pos => exact ⟨[], rfl, by simp⟩
  | cons pos chunk content ob items hne hdec _ ih =>
    obtain ⟨chunks, hc, hd⟩ := ih
    refine ⟨chunk :: chunks, by simp [hc], ?_⟩
    intro n ch hn
    cases n with
    | zero =>
      simp only [List.getElem?_cons_zero, Option.some.injEq] at hn
      subst hn
      exact ⟨ob, by simp, by simpa using hdec⟩
    | succ n =>
      simp only [List.getElem?_cons_succ] at hn
      obtain ⟨ob', h1, h2⟩ := hd n ch hn
      exact ⟨ob', by simpa using h1, by rw [show pos + (n + 1) = pos + 1 + n by omega]; exact h2⟩

/-- What "well-formed" means for a plain data file: eight bytes giving the length of the content, the content, and
slack; the content is a sequence of records, each of which decodes to a buffer whatever follows it. -/
def WellFormed (file : Bytes) : Prop :=
  ∃ (chunks : List Bytes) (slack : Bytes), file = beBytes 8 chunks.flatten.length ++ chunks.flatten ++ slack ∧
    chunks.flatten.length < 2 ^ 64 ∧
    ∀ chunk ∈ chunks, ∃ b, ∀ rest, crcDec (chunk ++ rest) 0 = .ok (some b) chunk.length

theorem framed_wellFormed {file content : Bytes} {items : List (Option Buffer)} (hh : Holds file content)
    (hf : Framed crcCodec 0 content items) (hsome : none ∉ items) : WellFormed file := by
  obtain ⟨chunks, hc, hd⟩ := framed_chunks hf
  obtain ⟨hb, slack, hfile⟩ := hh
  subst hc
  refine ⟨chunks, slack, hfile, by omega, ?_⟩
  intro chunk hch
  obtain ⟨n, hn⟩ := List.getElem?_of_mem hch
  obtain ⟨ob, h1, h2⟩ := hd n chunk hn
  cases ob with
  | none => exact absurd (List.mem_of_getElem? h1) hsome
  | some b => exact ⟨b, h2⟩

theorem goodFile_wellFormed {page : Nat} {h8 : 8 ≤ page} {K : Nat} {file : Bytes} {S : Store}
    (h : GoodFile (plainEnv page h8 False) crcCodec K file S) : file = [] ∨ WellFormed file := by
  cases h with
  | empty => exact .inl rfl
  | held hh hf _ _ _ _ hn => exact .inr (framed_wellFormed hh hf hn)

/-- **C15.** At every moment of any session of any life of a directory (between two background writes), the data file is
well-formed, or missing because a `clear_data` has just removed it. -/
theorem C15_well_formed {page : Nat} (h8 : 8 ≤ page) (h32 : page < 2 ^ 32) {xs : List (Session Unit)}
    {rss : List (List (Out Unit))} {d : Dir Unit} (hl : Life plain page Dir.fresh xs rss d)
    (hfit : ∀ x ∈ xs, ∀ e ∈ x.evs, e.Fits page) (hroom : page * callCount xs + 8 < 2 ^ 64) :
    d.file = [] ∨ WellFormed d.file := by
  obtain ⟨_, S, hS, hg⟩ := life_survives (E := plainEnv page h8 False) (K := 0) hl (goodDir_fresh _ 0)
    (fun x hx e he => (hfit x hx e he).ok h32) (by rw [Nat.zero_add]; exact plain_room hroom)
  exact goodFile_wellFormed (hg () (fun _ _ => rfl))

/-- **C15** for the current session, and "missing" only while a `clear_data` is under way. -/
theorem C15_session {page : Nat} (h8 : 8 ≤ page) (h32 : page < 2 ^ 32) {s0 s : Inst Unit} {es : List (Ev Unit)}
    {rs : List (Out Unit)} (hopen : openAt plain () page [] = some s0) (hrun : run plain s0 es = some (s, rs))
    (hfit : ∀ e ∈ es, e.Fits page) (hroom : page * (calls es).length + 8 < 2 ^ 64) :
    WellFormed s.disk ∨ (s.disk = [] ∧ s.phase.clearing = true) := by
  have hl : Life plain page Dir.fresh [⟨(), es, false⟩] [rs] s.dir :=
    .cons (x := ⟨(), es, false⟩) (fun _ _ => rfl) hopen hrun (by simp) (.nil _)
  have h := C15_well_formed h8 h32 hl (by simpa using hfit) (by simpa [callCount] using hroom)
  obtain ⟨s1, hs1, hd1, _⟩ := dinv_open (GoodFile.empty (E := plainEnv page h8 False) (c := plain ()) (K := 0))
  have hopen' : openAt plain () page [] = some s1 := hs1
  rw [hopen] at hopen'
  injection hopen' with hopen'
  subst hopen'
  obtain ⟨_, hd⟩ := dinv_run es hd1 (fun e he => (hfit e he).ok h32)
    (by simpa using (plain_room hroom : (plainEnv page h8 False).Room _)) hrun
  rcases h with h | h
  · right
    refine ⟨h, ?_⟩
    obtain ⟨_, _, _, content, items, _, _, hw, _, _⟩ := hd.ex
    cases hr : s.lp.cb.removed with
    | false =>
      have hd' : s.disk = s.lp.cb.ws.file := by simp [disk, hr]
      have := hw.holds.len
      rw [← hd', show s.disk = [] from h] at this
      simp at this
    | true =>
      cases hc : s.phase.clearing with
      | true => rfl
      | false =>
        obtain ⟨cb0, _, hinv⟩ := hd.book.inv
        have hp := hinv.ran_prefix
        rw [hd.book.late, List.append_nil] at hp
        have := hd.book.jobsW hc .remove (by unfold jobs; exact List.mem_append_left _ (hp.subset (hd.book.removed.1 hr)))
        simp [Job.isWrite] at this
  · exact .inl h

example : WellFormed (beBytes 8 16 ++ [0, 0, 0, 12, 10, 1, 107, 16, 4, 26, 4, 127, 192, 0, 1, 154] ++ zeros 40) := by
  refine ⟨[[0, 0, 0, 12, 10, 1, 107, 16, 4, 26, 4, 127, 192, 0, 1, 154]], zeros 40, rfl, by decide, ?_⟩
  intro chunk hc
  simp only [List.mem_singleton] at hc
  subst hc
  refine ⟨⟨"k", 4, [127, 192, 0, 1]⟩, fun rest => ?_⟩
  have := crcDec_frame [10, 1, 107, 16, 4, 26, 4, 127, 192, 0, 1] 154 rest 0 (by decide)
  rw [show (if crc8 [10, 1, 107, 16, 4, 26, 4, 127, 192, 0, 1] = 154 then kvFromBytes [10, 1, 107, 16, 4, 26, 4, 127, 192, 0, 1]
    else none) = some ⟨"k", 4, [127, 192, 0, 1]⟩ by decide +kernel] at this
  exact this

/-! ### C22 -/

/-- Nothing is queued, running or under way. -/
structure Quiet {ι : Type} (cb : Cb) (s : Inst ι) : Prop where
  queue : s.lp.queue = []
  buf : s.lp.buf = []
  chan : s.lp.chan = []
  cb : s.lp.cb = cb
  phase : s.phase = .idle ∨ s.phase = .closed

theorem quiet_step {ι : Type} {codecs : ι → Codec} {cb : Cb} {s s' : Inst ι} {e : Ev ι} {r : Option (Out Unit)}
    (h : Quiet cb s) (he : e.call? = none) (hs : step codecs s e = some (s', r)) : Quiet cb s' := by
  obtain ⟨h1, h2, h3, h4, h5⟩ := h
  cases e with
  | put => simp [Ev.call?] at he
  | delete => simp [Ev.call?] at he
  | clear => simp [Ev.call?] at he
  | api i => rcases h5 with h5 | h5 <;> simp [step, h5] at hs
  | drop =>
    simp only [step] at hs
    split at hs
    · cases hs
    · injection hs with hs; injection hs with hs _; subst hs
      exact ⟨h1, h2, h3, h4, .inr rfl⟩
  | io o =>
    simp only [step] at hs
    split at hs
    · cases hs
    · rename_i lp hlp
      injection hs with hs; injection hs with hs _; subst hs
      unfold Looper.ioStep at hlp
      cases hio : s.lp.io with
      | recv =>
        simp only [hio, h3] at hlp
        split at hlp
        · cases hlp
        · injection hlp with hlp; subst hlp; exact ⟨h1, h2, rfl, h4, h5⟩
      | swap => simp only [hio] at hlp; injection hlp with hlp; subst hlp; exact ⟨h2, h1, h3, h4, h5⟩
      | run => simp only [hio, h2] at hlp; injection hlp with hlp; subst hlp; exact ⟨h1, rfl, h3, h4, h5⟩
      | unwinding => simp only [hio] at hlp; injection hlp with hlp; subst hlp; exact ⟨h1, h2, h3, h4, h5⟩
      | exited => simp [hio] at hlp
      | dead => simp [hio] at hlp

theorem quiet_run {ι : Type} {codecs : ι → Codec} {cb : Cb} (es : List (Ev ι)) {s s' : Inst ι} {rs : List (Out Unit)}
    (h : Quiet cb s) (he : calls es = []) (hs : run codecs s es = some (s', rs)) : Quiet cb s' := by
  induction es generalizing s rs with
  | nil => simp only [run, Option.some.injEq, Prod.mk.injEq] at hs; obtain ⟨rfl, _⟩ := hs; exact h
  | cons e es ih =>
    rw [calls_cons] at he
    unfold run at hs
    split at hs
    · cases hs
    · rename_i s1 r hstep
      split at hs
      · cases hs
      · rename_i s2 rs2 hrun
        simp only [Option.some.injEq, Prod.mk.injEq] at hs
        obtain ⟨rfl, rfl⟩ := hs
        have he' : e.call? = none := by
          cases hc : e.call? with
          | none => rfl
          | some m => simp [hc] at he
        exact ih (quiet_step h he' hstep) (by rw [he'] at he; simpa using he) hrun

/-- **C22.** Opening a directory and doing anything but mutations (in particular closing it) leaves a non-empty file
byte for byte as it was, and turns a missing or empty one into one page of zeros.  For every codec and every file that
opens. -/
theorem C22_open_close {ι : Type} {codecs : ι → Codec} {i : ι} {page : Nat} {file : Bytes} {u : Nat} {q : Option Nat}
    {s0 s : Inst ι} {es : List (Ev ι)} {rs : List (Out Unit)} (hopen : openAt codecs i page file u q = some s0)
    (hrun : run codecs s0 es = some (s, rs)) (hno : calls es = []) :
    s.disk = if file = [] then List.replicate page 0 else file := by
  unfold openAt at hopen
  split at hopen
  · cases hopen
  · rename_i o ho
    injection hopen with hopen
    subst hopen
    have hq : Quiet { ws := o.ws } { idx := i, kv := o.kv, lp := Looper.new { ws := o.ws } : Inst ι } :=
      ⟨rfl, rfl, rfl, rfl, .inl rfl⟩
    have h := (quiet_run es hq hno hrun).cb
    have hf : o.ws.file = configNew page file := by
      unfold openStore at ho
      simp only [] at ho
      split at ho
      · cases ho
      · split at ho
        · cases ho
        · injection ho with ho; subst ho; rfl
    simp only [disk, h, hf, configNew, zeros]
    by_cases hn : file = []
    · simp [hn]
    · simp [hn]

/-- **C22**, opening twice: opening the file left by opening and closing shows the same map as the first time. -/
theorem C22_open_twice {ι : Type} {codecs : ι → Codec} {i : ι} {page : Nat} {file : Bytes}
    {s0 s s1 : Inst ι} {es : List (Ev ι)} {rs : List (Out Unit)} {S : Store} (hopen : openAt codecs i page file = some s0)
    (hrun : run codecs s0 es = some (s, rs)) (hno : calls es = []) (hS : s0.Shows S)
    (hagain : openAt codecs i page s.disk = some s1) : s1.Shows S := by
  have hd := C22_open_close hopen hrun hno
  have h0 := (shows_open hopen).1 hS
  refine (shows_open hagain).2 ?_
  rw [← h0]
  have hsame : openStore (codecs i) page s.disk = openStore (codecs i) page file := by
    have : configNew page s.disk = configNew page file := by
      rw [hd]
      by_cases hn : file = []
      · subst hn
        cases page <;> simp [configNew, zeros]
      · simp [hn]
    unfold openStore
    rw [this]
  unfold openAt at hopen hagain
  rw [hsame] at hagain
  split at hopen
  · cases hopen
  · rename_i o ho
    rw [ho] at hagain
    injection hopen with hopen
    injection hagain with hagain
    rw [← hopen, ← hagain]

/-- And it does open again. -/
theorem C22_reopens {ι : Type} {codecs : ι → Codec} {i : ι} {page : Nat} {file : Bytes}
    {s0 s : Inst ι} {es : List (Ev ι)} {rs : List (Out Unit)} (hopen : openAt codecs i page file = some s0)
    (hrun : run codecs s0 es = some (s, rs)) (hno : calls es = []) : (openAt codecs i page s.disk).isSome := by
  have hd := C22_open_close hopen hrun hno
  have : configNew page s.disk = configNew page file := by
    rw [hd]
    by_cases hn : file = []
    · subst hn
      cases page <;> simp [configNew, zeros]
    · simp [hn]
  unfold openAt openStore at *
  rw [this]
  split at hopen
  · cases hopen
  · rfl

/-- A fresh directory opens as the empty map. -/
theorem C22_fresh_empty {ι : Type} (codecs : ι → Codec) (i : ι) (page : Nat) (hp : 8 ≤ page) :
    ∃ s, openAt codecs i page [] = some s ∧ s.Shows Store.empty ∧ s.disk = List.replicate page 0 := by
  obtain ⟨s0, h0, hs, _⟩ := C01_fresh (codecs := codecs) (i := i) hp []
  refine ⟨s0, h0, hs, ?_⟩
  have := C22_open_close h0 (rfl : run codecs s0 [] = some (s0, [])) rfl
  simpa using this

example : ∃ s rs, fresh64 [.drop, .io idOrder] = some (s, rs) ∧ s.closedOk := by
  have h : passes (fresh64 [.drop, .io idOrder]) (fun s _ => decide (s.phase = .closed ∧ s.lp.io = .exited)) = true := by
    decide +kernel
  obtain ⟨s, rs, h1, h2⟩ := exists_of_passes h
  exact ⟨s, rs, h1, by simpa [closedOk] using h2⟩

/-! ### C26 -/

theorem run_after_clear (S : Store) (a b : List Mutation) : S.run (a ++ [.clear] ++ b) = Store.empty.run b := by
  rw [run_append, run_append]; rfl

/-- **C26**, this process: once `clear_data` has returned `Ok`, what gets show depends only on the calls made after it
(so nothing, if there were none); puts after it work like on a new store. -/
theorem C26_clear {ι : Type} {codecs : ι → Codec} {i : ι} {page : Nat} {file : Bytes} {u : Nat} {q : Option Nat}
    {s0 s : Inst ι} {es es' : List (Ev ι)} {rs : List (Out Unit)} (hopen : openAt codecs i page file u q = some s0)
    (hrun : run codecs s0 (es ++ [.clear] ++ es') = some (s, rs)) (hok : ∀ r ∈ rs, r = .ok ()) (hidle : s.phase = .idle) :
    s.Shows (Store.empty.run (calls es')) := by
  have h := C01_latest_write_wins hopen ((shows_open hopen).2 rfl) hrun hok hidle
  rw [calls_append, calls_append] at h
  have : calls [(Ev.clear : Ev ι)] = [.clear] := rfl
  rw [this, run_after_clear] at h
  exact h

/-- **C26**, usable and durable: in a session with a `clear_data`, every call before and after it returns `Ok` (the
thread is replaced and works), and after a clean close exactly the mutations made after the clear are there. -/
theorem C26_clear_reopen {page : Nat} (h8 : 8 ≤ page) (h32 : page < 2 ^ 32) {xs : List (Session Unit)}
    {es es' : List (Ev Unit)} {rss : List (List (Out Unit))} {d : Dir Unit}
    (hl : Life plain page Dir.fresh (xs ++ [⟨(), es ++ [.clear] ++ es', true⟩]) rss d)
    (hfit : ∀ x ∈ xs ++ [⟨(), es ++ [.clear] ++ es', true⟩], ∀ e ∈ x.evs, e.Fits page)
    (hclean : ∀ x ∈ xs, x.clean = true)
    (hroom : page * callCount (xs ++ [⟨(), es ++ [.clear] ++ es', true⟩]) + 8 < 2 ^ 64) :
    (∀ rs ∈ rss, ∀ r ∈ rs, r = .ok ()) ∧
      ∃ s, openAt plain () page d.file = some s ∧ s.Shows (Store.empty.run (calls es')) := by
  obtain ⟨hr, s, hs, hsh⟩ := C06_close_reopen h8 h32 hl hfit (by
    intro x hx
    rcases List.mem_append.1 hx with hx | hx
    · exact hclean x hx
    · simp at hx; subst hx; rfl) hroom
  refine ⟨hr, s, hs, ?_⟩
  have : Store.empty.run (allCalls (xs ++ [⟨(), es ++ [Ev.clear] ++ es', true⟩])) = Store.empty.run (calls es') := by
    have h1 : allCalls (xs ++ [⟨(), es ++ [Ev.clear] ++ es', true⟩]) = (allCalls xs ++ calls es) ++ [.clear] ++ calls es' := by
      simp [allCalls, calls]
      rfl
    rw [h1, run_after_clear]
  rw [this] at hsh
  exact hsh

/-- A session with a clear in the middle. -/
def demoClear : List (Session Unit) :=
  [⟨(), ([.put "a" 2 [1], .api (), .api ()] ++ [.clear] ++
      [.io idOrder, .api (), .io idOrder, .api (), .io idOrder, .api (), .io idOrder, .io idOrder, .io idOrder, .io idOrder,
        .io idOrder, .io idOrder, .api (), .api (), .put "b" 2 [0], .api (), .api (), .drop, .io idOrder, .io idOrder,
        .io idOrder, .io idOrder, .io idOrder]), true⟩]

example : ∃ rss d, Life plain 64 Dir.fresh ([] ++ demoClear) rss d := by
  have h : (lifeRun 64 [] demoClear).isSome = true := by decide +kernel
  cases hr : lifeRun 64 [] demoClear with
  | none => simp [hr] at h
  | some p =>
    obtain ⟨d', hl, _⟩ := life_of_lifeRun demoClear Dir.fresh p.1 p.2 hr
    exact ⟨_, d', hl⟩

/-! ### After reopen: C02, C04, C05, C44 -/

/-- **C02** through the file: a value put in any session (closed cleanly, like all later ones), with the key not touched
since, reads back exactly; and (**C03**) at no other type. -/
theorem C02_reopen {page : Nat} (h8 : 8 ≤ page) (h32 : page < 2 ^ 32) {xs : List (Session Unit)}
    {rss : List (List (Out Unit))} {d : Dir Unit} (hl : Life plain page Dir.fresh xs rss d)
    (hfit : ∀ x ∈ xs, ∀ e ∈ x.evs, e.Fits page) (hclean : ∀ x ∈ xs, x.clean = true)
    (hroom : page * callCount xs + 8 < 2 ^ 64) {k : String} {t : Ty} {v : t.Val} {pre post : List Mutation}
    (hcalls : allCalls xs = pre ++ [.put k ⟨t.token, toBytes t v⟩] ++ post) (hk : ∀ m ∈ post, Leaves k m) :
    ∃ s, openAt plain () page d.file = some s ∧ s.get k t = .ok v ∧ ∀ t', t' ≠ t → s.get k t' = .err .typeMissMatch := by
  obtain ⟨_, s, hs, hsh⟩ := C06_close_reopen h8 h32 hl hfit hclean hroom
  have key : ∀ (α : Type) (token : BitVec 32) (f : Bytes → Out α),
      s.getAs k token f = if token = t.token then f (toBytes t v) else .err .typeMissMatch := by
    intro α token f
    rw [hsh α k token f, hcalls, run_append, lookup_leaves _ _ _ hk, run_append]
    exact lookup_put_same _ k ⟨t.token, toBytes t v⟩ token f
  refine ⟨s, hs, ?_, ?_⟩
  · unfold Inst.get; rw [key, if_pos rfl]; exact fromBytes_toBytes t v
  · intro t' ht
    unfold Inst.get
    rw [key, if_neg (fun h => ht (token_injective h))]

/-- **C04** after reopen: a key deleted and not put since is not found. -/
theorem C04_reopen {α : Type} {page : Nat} (h8 : 8 ≤ page) (h32 : page < 2 ^ 32) {xs : List (Session Unit)}
    {rss : List (List (Out Unit))} {d : Dir Unit} (hl : Life plain page Dir.fresh xs rss d)
    (hfit : ∀ x ∈ xs, ∀ e ∈ x.evs, e.Fits page) (hclean : ∀ x ∈ xs, x.clean = true)
    (hroom : page * callCount xs + 8 < 2 ^ 64) {k : String} {pre post : List Mutation}
    (hcalls : allCalls xs = pre ++ [.delete k] ++ post) (hk : ∀ e, Mutation.put k e ∉ post) (token : BitVec 32) (f : Bytes → Out α) :
    ∃ s, openAt plain () page d.file = some s ∧ s.getAs k token f = .err .keyNotFound := by
  obtain ⟨_, s, hs, hsh⟩ := C06_close_reopen h8 h32 hl hfit hclean hroom
  refine ⟨s, hs, ?_⟩
  rw [hsh α k token f, hcalls, run_append]
  unfold Store.lookup
  rw [run_noPut post _ (by rw [run_append]; simp [Store.run, Store.apply]) hk]

/-- **C05** after reopen: sessions that never touch `k` do not change what a get of `k` returns when opening again. -/
theorem C05_reopen {α : Type} {page : Nat} (h8 : 8 ≤ page) (h32 : page < 2 ^ 32) {xs ys : List (Session Unit)}
    {rss rss' : List (List (Out Unit))} {d d' : Dir Unit} (hl : Life plain page Dir.fresh xs rss d)
    (hl' : Life plain page Dir.fresh (xs ++ ys) rss' d')
    (hfit : ∀ x ∈ xs ++ ys, ∀ e ∈ x.evs, e.Fits page) (hclean : ∀ x ∈ xs ++ ys, x.clean = true)
    (hroom : page * callCount (xs ++ ys) + 8 < 2 ^ 64) {k : String} (hk : ∀ m ∈ allCalls ys, Leaves k m)
    (token : BitVec 32) (f : Bytes → Out α) :
    ∃ s s', openAt plain () page d.file = some s ∧ openAt plain () page d'.file = some s' ∧
      s'.getAs k token f = s.getAs k token f := by
  have hle : callCount xs ≤ callCount (xs ++ ys) := by simp [callCount]
  have hroom1 : page * callCount xs + 8 < 2 ^ 64 := by
    have := Nat.mul_le_mul_left page hle; omega
  obtain ⟨_, s, hs, hsh⟩ := C06_close_reopen h8 h32 hl (fun x hx => hfit x (List.mem_append_left _ hx))
    (fun x hx => hclean x (List.mem_append_left _ hx)) hroom1
  obtain ⟨_, s', hs', hsh'⟩ := C06_close_reopen h8 h32 hl' hfit hclean hroom
  refine ⟨s, s', hs, hs', ?_⟩
  have : allCalls (xs ++ ys) = allCalls xs ++ allCalls ys := by simp [allCalls]
  rw [hsh α k token f, hsh' α k token f, this, run_append, lookup_leaves _ _ _ hk]

/-- **C44** after reopen: two lives whose calls differ by swapping two adjacent mutations of different keys cannot be
told apart by any get after opening again. -/
theorem C44_reopen {α : Type} {page : Nat} (h8 : 8 ≤ page) (h32 : page < 2 ^ 32) {xs ys : List (Session Unit)}
    {rss rss' : List (List (Out Unit))} {d d' : Dir Unit} (hl : Life plain page Dir.fresh xs rss d)
    (hl' : Life plain page Dir.fresh ys rss' d')
    (hfit : ∀ x ∈ xs ++ ys, ∀ e ∈ x.evs, e.Fits page) (hclean : ∀ x ∈ xs ++ ys, x.clean = true)
    (hroom : page * callCount (xs ++ ys) + 8 < 2 ^ 64) {pre post : List Mutation} {a b : Mutation} (hab : Independent a b)
    (h1 : allCalls xs = pre ++ [a, b] ++ post) (h2 : allCalls ys = pre ++ [b, a] ++ post)
    (k : String) (token : BitVec 32) (f : Bytes → Out α) :
    ∃ s s', openAt plain () page d.file = some s ∧ openAt plain () page d'.file = some s' ∧
      s.getAs k token f = s'.getAs k token f := by
  have hle1 : callCount xs ≤ callCount (xs ++ ys) := by simp [callCount]
  have hle2 : callCount ys ≤ callCount (xs ++ ys) := by simp [callCount]
  have := Nat.mul_le_mul_left page hle1
  have := Nat.mul_le_mul_left page hle2
  obtain ⟨_, s, hs, hsh⟩ := C06_close_reopen h8 h32 hl (fun x hx => hfit x (List.mem_append_left _ hx))
    (fun x hx => hclean x (List.mem_append_left _ hx)) (by omega)
  obtain ⟨_, s', hs', hsh'⟩ := C06_close_reopen h8 h32 hl' (fun x hx => hfit x (List.mem_append_right _ hx))
    (fun x hx => hclean x (List.mem_append_right _ hx)) (by omega)
  refine ⟨s, s', hs, hs', ?_⟩
  have : Store.empty.run (allCalls xs) = Store.empty.run (allCalls ys) := by
    rw [h1, h2, run_append, run_append, run_append, run_append]
    congr 1
    exact apply_comm _ a b hab
  rw [hsh α k token f, hsh' α k token f, this]

/-! ### C46: a store at rest is on disk -/

/-- When the background thread cannot move it is waiting for a signal, and none is there. -/
theorem io_at_rest {page : Nat} {h8 : 8 ≤ page} {S0 : Store} {K : Nat} {cs : List Mutation} {s : Inst Unit}
    (hd : DInv (plainEnv page h8 False) S0 K cs s) (hidle : s.phase = .idle) (hrest : ∀ o, step plain s (.io o) = none) :
    s.lp.io = .recv ∧ s.lp.chan = [] := by
  have hsd : s.lp.sender = true := by rw [hd.book.sender, hidle]; rfl
  obtain ⟨cb0, _, hinv⟩ := hd.book.inv
  have hst : ∀ o, Looper.ioStep (fun o j cb => execJob (plain s.idx) o j cb) o s.lp = none := by
    intro o
    have := hrest o
    simp only [step] at this
    split at this
    · assumption
    · cases this
  have h := hst idOrder
  unfold Looper.ioStep at h
  cases hio : s.lp.io with
  | recv =>
    refine ⟨rfl, ?_⟩
    cases hch : s.lp.chan with
    | nil => rfl
    | cons x xs => simp only [hio, hch] at h; cases x <;> simp at h
  | swap => simp [hio] at h
  | run =>
    simp only [hio] at h
    split at h
    · cases h
    · split at h <;> cases h
  | exited => have := (hinv.exitedClosed hio).1; rw [hsd] at this; cases this
  | unwinding => exact absurd hio hd.alive.1
  | dead => exact absurd hio hd.alive.2

/-- **C46.** When no call is under way and the background thread has nothing to do (it waits for a signal and none is
there), everything acknowledged is on disk: killing the process then loses nothing. -/
theorem C46_at_rest {page : Nat} (h8 : 8 ≤ page) (h32 : page < 2 ^ 32) {s0 s : Inst Unit} {es : List (Ev Unit)}
    {rs : List (Out Unit)} (hopen : openAt plain () page [] = some s0) (hrun : run plain s0 es = some (s, rs))
    (hfit : ∀ e ∈ es, e.Fits page) (hroom : page * (calls es).length + 8 < 2 ^ 64)
    (hidle : s.phase = .idle) (hrest : ∀ o, step plain s (.io o) = none) :
    ∃ s', openAt plain () page s.disk = some s' ∧ s'.Shows (Store.empty.run (calls es)) := by
  obtain ⟨s1, hs1, hd1, _⟩ := dinv_open (GoodFile.empty (E := plainEnv page h8 False) (c := plain ()) (K := 0))
  have hopen' : openAt plain () page [] = some s1 := hs1
  rw [hopen] at hopen'
  injection hopen' with hopen'
  subst hopen'
  obtain ⟨_, hd⟩ := dinv_run es hd1 (fun e he => (hfit e he).ok h32)
    (by simpa using (plain_room hroom : (plainEnv page h8 False).Room _)) hrun
  rw [List.nil_append] at hd
  have hio := io_at_rest hd hidle hrest
  obtain ⟨hnr, hg⟩ := disk_drained hd (by simp [hidle, Phase.clearing]) (drained_at_rest hd hidle hio.1 hio.2)
  obtain ⟨s', hs', hd', _⟩ := dinv_open hg
  refine ⟨s', hs', shows_of_view hs' ?_⟩
  simpa [Store.run] using hd'.kvView

/-- Non-vacuity: after `demoEvs` the store is at rest, and holds something. -/
example : ∃ s rs, fresh64 (fullPut "a" 0 [0, 0, 0, 1]) = some (s, rs) ∧ s.phase = .idle ∧
    (∀ o, step plain s (.io o) = none) ∧ rs = [.ok ()] := by
  have h : passes (fresh64 (fullPut "a" 0 [0, 0, 0, 1]))
      (fun s rs => decide (s.phase = .idle ∧ s.lp.io = .recv ∧ s.lp.chan = [] ∧ s.lp.sender = true ∧ rs = [.ok ()])) = true := by
    decide +kernel
  obtain ⟨s, rs, h1, h2⟩ := exists_of_passes h
  obtain ⟨h3, h4, h5, h6, h7⟩ := of_decide_eq_true h2
  exact ⟨s, rs, h1, h3, fun o => by simp [step, Looper.ioStep, h4, h5, h6], h7⟩

/-! ### C47: the page size may change between sessions -/

theorem GoodFile.repage {p p' : Nat} {h8 : 8 ≤ p} {h8' : 8 ≤ p'} {K : Nat} {file : Bytes} {S : Store}
    (h : GoodFile (plainEnv p h8 False) crcCodec K file S) : GoodFile (plainEnv p' h8' False) crcCodec (p * K) file S := by
  cases h with
  | empty => exact .empty
  | held hh hf hb hsz hk hs hn =>
    have h1 : 1 * K ≤ p * K := Nat.mul_le_mul_right _ (by omega)
    refine .held hh hf hb ?_ (by omega) ?_ hn
    · rcases hsz with h | h
      · exact absurd h.1 id
      · exact .inr h
    · have h2 : 1 * (p * K) ≤ p' * (p * K) := Nat.mul_le_mul_right _ (by omega)
      simp only [plainEnv] at hs ⊢
      omega

theorem _root_.Spec.Survives.append {S S' S'' : Store} {a b : List (List Mutation × Bool)} (h : Survives S a S')
    (h' : Survives S' b S'') : Survives S (a ++ b) S'' := by
  induction h with
  | nil => exact h'
  | cons m hm hc _ ih => exact .cons m hm hc (ih h')

/-- **C47.** A directory used with one page size and then with another (a device whose kernel changed, a backup restored
elsewhere) keeps everything: after sessions `xs` with page size `p` and sessions `ys` with page size `p'`, opening with
any page size shows what survives of all the calls; all of them when every session was closed cleanly. -/
theorem C47_page_size_change {p p' p'' : Nat} (h8 : 8 ≤ p) (h32 : p < 2 ^ 32) (h8' : 8 ≤ p') (h32' : p' < 2 ^ 32)
    (h8'' : 8 ≤ p'') {xs ys : List (Session Unit)} {rss rss' : List (List (Out Unit))} {d d' : Dir Unit}
    (hl : Life plain p Dir.fresh xs rss d) (hl' : Life plain p' d ys rss' d')
    (hfit : ∀ x ∈ xs, ∀ e ∈ x.evs, e.Fits p) (hfit' : ∀ x ∈ ys, ∀ e ∈ x.evs, e.Fits p')
    (hroom : p' * (p * callCount xs + callCount ys) + 8 < 2 ^ 64) :
    (∀ rs ∈ rss ++ rss', ∀ r ∈ rs, r = .ok ()) ∧
    ∃ S s, Survives Store.empty (sessionCalls xs ++ sessionCalls ys) S ∧ openAt plain () p'' d'.file = some s ∧ s.Shows S ∧
      ((∀ x ∈ xs ++ ys, x.clean = true) → S = Store.empty.run (allCalls (xs ++ ys))) := by
  have hr1 : p * callCount xs + 8 < 2 ^ 64 := by
    have h2 : 1 * (p * callCount xs + callCount ys) ≤ p' * (p * callCount xs + callCount ys) := Nat.mul_le_mul_right _ (by omega)
    omega
  obtain ⟨hr, S1, hS1, hg1⟩ := life_survives (E := plainEnv p h8 False) (K := 0) hl (goodDir_fresh _ 0)
    (fun x hx e he => (hfit x hx e he).ok h32) (by rw [Nat.zero_add]; exact plain_room hr1)
  rw [Nat.zero_add] at hg1
  have hg1' : GoodDir (plainEnv p' h8' False) (p * callCount xs) d S1 := fun i hi => (hg1 i hi).repage
  obtain ⟨hr', S2, hS2, hg2⟩ := life_survives (E := plainEnv p' h8' False) hl' hg1'
    (fun x hx e he => (hfit' x hx e he).ok h32') (plain_room hroom)
  have hg3 : GoodDir (plainEnv p'' h8'' False) (p' * (p * callCount xs + callCount ys)) d' S2 := fun i hi => (hg2 i hi).repage
  obtain ⟨s, hs, hv⟩ := openAt_goodDir hg3 () (fun _ _ => rfl)
  have hS : Survives Store.empty (sessionCalls xs ++ sessionCalls ys) S2 := hS1.append hS2
  refine ⟨?_, S2, s, hS, hs, shows_of_view hs hv, ?_⟩
  · intro rs hrs
    rcases List.mem_append.1 hrs with h | h
    · exact hr rs h
    · exact hr' rs h
  · intro hcl
    rw [survives_clean hS]
    · simp [sessionCalls, allCalls, Function.comp_def]
    · intro q hq
      unfold sessionCalls at hq
      rw [← List.map_append] at hq
      obtain ⟨x, hx, rfl⟩ := List.mem_map.1 hq
      exact hcl x hx

/-- Non-vacuity: a record of 52 bytes written with 64-byte pages, then sessions with 32-byte pages that overwrite
another key until the file is compacted. -/
example : ∃ rss rss' d d', Life plain 64 Dir.fresh [⟨(), fullPut "a" 1 (List.replicate 40 120) ++ [.drop, .io idOrder], true⟩] rss d ∧
    Life plain 32 d [⟨(), fullPut "b" 2 [1] ++ fullPut "b" 2 [0] ++ [.drop, .io idOrder], true⟩] rss' d' ∧ d'.file.length = 96 := by
  have h1 : (lifeRun 64 [] [⟨(), fullPut "a" 1 (List.replicate 40 120) ++ [.drop, .io idOrder], true⟩]).isSome = true := by
    decide +kernel
  cases hr1 : lifeRun 64 [] [⟨(), fullPut "a" 1 (List.replicate 40 120) ++ [.drop, .io idOrder], true⟩] with
  | none => rw [hr1] at h1; cases h1
  | some r1 =>
    obtain ⟨rss, f⟩ := r1
    have h2 : (match lifeRun 64 [] [⟨(), fullPut "a" 1 (List.replicate 40 120) ++ [.drop, .io idOrder], true⟩] with
      | none => false
      | some r => match lifeRun 32 r.2 [⟨(), fullPut "b" 2 [1] ++ fullPut "b" 2 [0] ++ [.drop, .io idOrder], true⟩] with
        | none => false
        | some r' => decide (r'.2.length = 96)) = true := by decide +kernel
    simp only [hr1] at h2
    cases hr2 : lifeRun 32 f [⟨(), fullPut "b" 2 [1] ++ fullPut "b" 2 [0] ++ [.drop, .io idOrder], true⟩] with
    | none => rw [hr2] at h2; cases h2
    | some r2 =>
      obtain ⟨rss', f'⟩ := r2
      rw [hr2] at h2
      obtain ⟨d, hl, hd⟩ := life_of_lifeRun _ Dir.fresh _ _ hr1
      obtain ⟨d', hl', hd'⟩ := life_of_lifeRun _ d _ _ (by rw [hd]; exact hr2)
      exact ⟨rss, rss', d, d', hl, hl', by rw [hd']; exact of_decide_eq_true h2⟩

end Mmkv
