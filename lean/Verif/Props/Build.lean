import Verif.Lemmas.Build
import Verif.Props.Bounded
import Verif.Props.Quota
import Verif.Props.Encrypt
/-!
# The same program in every build: C92

`Build.run` (Model/Build) is the same code with the machine's arithmetic of a given build; `run` is the model the other theorems are about.
-/

namespace Mmkv
open Spec Inst
variable {ι : Type}

/-- The codec of a store without encryption, in a build. -/
def Build.plain (b : Build) : Unit → Codec := fun _ => b.crcCodec
/-- The codec of a store with encryption, in a build. -/
def Build.encrypted (b : Build) (C : Cipher) : Bytes × Bytes → Codec := fun i => b.aeadCodec ⟨C, i.1, i.2⟩

/-- At every moment of the history the data file is at most 2^32 - 64 bytes. -/
def SmallFile (codecs : ι → Codec) (s : Inst ι) (es : List (Ev ι)) : Prop := ∀ m s' rs, run codecs s (es.take m) = some (s', rs) → s'.lp.cb.ws.file.length ≤ maxFile

/-- In no moment of the history has a call panicked or the background thread been unwound. -/
def NoPanic (codecs : ι → Codec) (s : Inst ι) (es : List (Ev ι)) : Prop :=
  ∀ m s' rs, run codecs s (es.take m) = some (s', rs) → s'.lp.io ≠ .unwinding ∧ ∀ r ∈ rs, r ≠ .panic

theorem smallFile_cons {codecs : ι → Codec} {s s1 : Inst ι} {e : Ev ι} {es : List (Ev ι)} {r : Option (Out Unit)} (h : SmallFile codecs s (e :: es))
    (hs : step codecs s e = some (s1, r)) : s1.lp.cb.ws.file.length ≤ maxFile ∧ SmallFile codecs s1 es := by
  refine ⟨h 1 s1 r.toList (by simp [run, hs]), fun m s' rs hr => h (m + 1) s' (r.toList ++ rs) ?_⟩
  simp only [List.take_succ_cons, run, hs, hr]

theorem noPanic_cons {codecs : ι → Codec} {s s1 : Inst ι} {e : Ev ι} {es : List (Ev ι)} {r : Option (Out Unit)} (h : NoPanic codecs s (e :: es))
    (hs : step codecs s e = some (s1, r)) : s1.lp.io ≠ .unwinding ∧ r ≠ some .panic ∧ NoPanic codecs s1 es := by
  have h1 := h 1 s1 r.toList (by simp [run, hs])
  refine ⟨h1.1, fun hr => h1.2 .panic (by simp [hr]) rfl, fun m s' rs hr => ?_⟩
  have h2 := h (m + 1) s' (r.toList ++ rs) (by simp only [List.take_succ_cons, run, hs, hr])
  exact ⟨h2.1, fun x hx => h2.2 x (List.mem_append_right _ hx)⟩

/-- A build whose panics unwind. -/
theorem run_build_unwind (b : Build) (hb : b.unwind = true) {codecs codecs' : ι → Codec} (ha : ∀ i, Agree (codecs i) (codecs' i)) (es : List (Ev ι)) {s : Inst ι} (h : BInv s)
    (he : ∀ e ∈ es, e.Sane) (hf : SmallFile codecs s es) : b.run codecs' s es = (run codecs s es).map fun p => (.running p.1, p.2) := by
  induction es generalizing s with
  | nil => rfl
  | cons e es ih =>
    obtain ⟨h1, h2⟩ := step_build b ha h (he e List.mem_cons_self) (fun s' r hs => (smallFile_cons hf hs).1)
    unfold Build.run run
    rw [h1]
    cases hs : step codecs s e with
    | none => rfl
    | some p =>
      obtain ⟨s1, r⟩ := p
      simp only [hb, Bool.not_true, Bool.false_and, Bool.false_eq_true, if_false]
      rw [ih (h2 s1 r hs) (fun e' he' => he e' (List.mem_cons_of_mem _ he')) (smallFile_cons hf hs).2]
      cases run codecs s1 es <;> rfl

/-- A build whose panics end the process: it does the same, or ends with the first panic. -/
theorem run_build_ends (b : Build) (hb : b.unwind = false) {codecs codecs' : ι → Codec} (ha : ∀ i, Agree (codecs i) (codecs' i)) (es : List (Ev ι)) {s : Inst ι} (h : BInv s)
    (he : ∀ e ∈ es, e.Sane) (hf : SmallFile codecs s es) :
    (∀ s' rs, b.run codecs' s es = some (.running s', rs) → run codecs s es = some (s', rs)) ∧
    (∀ file rs, b.run codecs' s es = some (.ended file, rs) → ∃ m s1 s2 r, m < es.length ∧ run codecs s (es.take m) = some (s1, rs) ∧
      run codecs s (es.take (m + 1)) = some (s2, rs ++ r.toList) ∧ (r = some .panic ∨ (s1.lp.io = .run ∧ s2.lp.io = .unwinding)) ∧ file = s2.disk) ∧
    (b.run codecs' s es = none → run codecs s es = none) := by
  induction es generalizing s with
  | nil =>
    refine ⟨fun s' rs h => ?_, fun file rs h => ?_, fun h => ?_⟩
    · simpa [Build.run, run] using h
    · simp [Build.run] at h
    · simp [Build.run] at h
  | cons e es ih =>
    obtain ⟨h1, h2⟩ := step_build b ha h (he e List.mem_cons_self) (fun s' r hs => (smallFile_cons hf hs).1)
    cases hs : step codecs s e with
    | none => simp [Build.run, run, h1, hs]
    | some p =>
      obtain ⟨s1, r⟩ := p
      obtain ⟨i1, i2, i3⟩ := ih (h2 s1 r hs) (fun e' he' => he e' (List.mem_cons_of_mem _ he')) (smallFile_cons hf hs).2
      by_cases hp : Build.panicked s s1 r = true
      · have hrun : b.run codecs' s (e :: es) = some (.ended s1.disk, []) := by
          unfold Build.run; rw [h1, hs]; simp [hb, hp]
        rw [hrun]
        refine ⟨fun s' rs h => (by simp at h), fun file rs h => ?_, fun h => (by cases h)⟩
        simp only [Option.some.injEq, Prod.mk.injEq, Build.Status.ended.injEq] at h
        obtain ⟨rfl, rfl⟩ := h
        refine ⟨0, s, s1, r, by simp, rfl, by simp [run, hs], ?_, rfl⟩
        simpa [Build.panicked] using hp
      · have hrun : b.run codecs' s (e :: es) = (b.run codecs' s1 es).map fun q => (q.1, r.toList ++ q.2) := by
          conv => lhs; unfold Build.run
          rw [h1, hs]
          simp only [hb, Bool.not_false, Bool.true_and, hp, Bool.false_eq_true, if_false]
          cases b.run codecs' s1 es <;> rfl
        rw [hrun]
        have hrun' : run codecs s (e :: es) = (run codecs s1 es).map fun q => (q.1, r.toList ++ q.2) := by
          conv => lhs; unfold run
          simp only [hs]
          cases run codecs s1 es <;> rfl
        refine ⟨fun s' rs h => ?_, fun file rs h => ?_, fun h => ?_⟩
        · cases hq : b.run codecs' s1 es with
          | none => rw [hq] at h; cases h
          | some q =>
            obtain ⟨st, qs⟩ := q
            rw [hq] at h
            simp only [Option.map_some, Option.some.injEq, Prod.mk.injEq] at h
            obtain ⟨rfl, rfl⟩ := h
            rw [hrun', i1 _ _ hq]
            rfl
        · cases hq : b.run codecs' s1 es with
          | none => rw [hq] at h; cases h
          | some q =>
            obtain ⟨st, qs⟩ := q
            rw [hq] at h
            simp only [Option.map_some, Option.some.injEq, Prod.mk.injEq] at h
            obtain ⟨rfl, rfl⟩ := h
            obtain ⟨m, t1, t2, r', j1, j2, j3, j4, j5⟩ := i2 _ _ hq
            refine ⟨m + 1, t1, t2, r', by simpa using j1, ?_, ?_, j4, j5⟩
            · simp only [List.take_succ_cons, run, hs, j2]
            · simp only [List.take_succ_cons, run, hs]
              rw [j3]
              simp
        · cases hq : b.run codecs' s1 es with
          | none => rw [hrun', i3 hq]; rfl
          | some q => rw [hq] at h; cases h

/-- A history in which nothing panics is the same in every build. -/
theorem run_build_quiet (b : Build) {codecs codecs' : ι → Codec} (ha : ∀ i, Agree (codecs i) (codecs' i)) (es : List (Ev ι)) {s : Inst ι} (h : BInv s)
    (he : ∀ e ∈ es, e.Sane) (hf : SmallFile codecs s es) (hq : NoPanic codecs s es) : b.run codecs' s es = (run codecs s es).map fun p => (.running p.1, p.2) := by
  cases hb : b.unwind with
  | true => exact run_build_unwind b hb ha es h he hf
  | false =>
    obtain ⟨h1, h2, h3⟩ := run_build_ends b hb ha es h he hf
    cases hr : b.run codecs' s es with
    | none => rw [h3 hr]; rfl
    | some q =>
      obtain ⟨st, rs⟩ := q
      cases st with
      | running s' => rw [h1 _ _ hr]; rfl
      | ended file =>
        obtain ⟨m, s1, s2, r, g1, g2, g3, g4, g5⟩ := h2 _ _ hr
        have k := hq (m + 1) s2 _ g3
        rcases g4 with rfl | g4
        · exact absurd rfl (k.2 .panic (by simp))
        · exact absurd g4.2 k.1

/-! ### Opening -/

theorem openAt_header {codecs : ι → Codec} {i : ι} {page : Nat} {file : Bytes} {u : Nat} {q : Option Nat} {s : Inst ι} (h : openAt codecs i page file u q = some s) :
    beVal (file.take 8) + 8 < 2 ^ 64 := by
  unfold openAt openStore at h
  simp only [] at h
  split at h
  · cases h
  rename_i o ho
  split at ho
  · cases ho
  split at ho
  · cases ho
  rename_i items hi
  unfold WState.readItems at hi
  split at hi
  · cases hi
  rename_i off hoff
  obtain ⟨_, g2, _, _, g5⟩ := writeOffset_ge hoff
  simp only [configNew] at g5
  split at g5
  · rename_i h0
    have : file = [] := List.length_eq_zero_iff.1 h0
    subst this
    decide
  · omega

/-- **C92, opening, proved.** A file the model opens - in particular, one a debug build opens - is opened to the same store by every build; the model and every build fail on the others
alike, unless the file's header is one of the last eight values of a `u64`. -/
theorem C92_open_partial (b : Build) {page : Nat} {file : Bytes} (hp : page ≤ maxFile) (hf : file.length ≤ maxFile) (hh : beVal (file.take 8) + 8 < 2 ^ 64) (u : Nat) (q : Option Nat) :
    b.openAt b.plain () page file u q = openAt plain () page file u q :=
  (openAt_build b (codecs := plain) (codecs' := b.plain) (fun _ => agree_crc b) () hp hf hh).1

/-- **C92, the proved part.** From any file that opens, any history of calls and background steps - failing ones and a limited disk included - in which the file and the records stay below
4 GiB: every build in which a panic unwinds does, step for step, what the model does, so that all theorems about `run` are theorems about debug and release builds alike. -/
theorem C92_partial (b : Build) (hb : b.unwind = true) {page : Nat} {file : Bytes} {u : Nat} {q : Option Nat} {s0 : Inst Unit} (hp : page ≤ maxFile) (hf : file.length ≤ maxFile)
    (hopen : openAt plain () page file u q = some s0) {es : List (Ev Unit)} (he : ∀ e ∈ es, e.Sane) (hs : SmallFile plain s0 es) :
    b.openAt b.plain () page file u q = some s0 ∧ b.run b.plain s0 es = (run plain s0 es).map fun p => (.running p.1, p.2) := by
  obtain ⟨h1, h2⟩ := openAt_build b (codecs := plain) (codecs' := b.plain) (fun _ => agree_crc b) () (u := u) (q := q) hp hf (openAt_header hopen)
  exact ⟨h1.trans hopen, run_build_unwind b hb (fun _ => agree_crc b) es (h2 s0 hopen) he hs⟩

/-- **C92, the shipped builds.** Under the same conditions a build whose panics end the process does the same as the others until the first panic; then it ends, and leaves the data file
the others have at that moment. -/
theorem C92_shipped_partial (b : Build) (hb : b.unwind = false) {page : Nat} {file : Bytes} {u : Nat} {q : Option Nat} {s0 : Inst Unit} (hp : page ≤ maxFile) (hf : file.length ≤ maxFile)
    (hopen : openAt plain () page file u q = some s0) {es : List (Ev Unit)} (he : ∀ e ∈ es, e.Sane) (hs : SmallFile plain s0 es) :
    b.openAt b.plain () page file u q = some s0 ∧
    (∀ s' rs, b.run b.plain s0 es = some (.running s', rs) → run plain s0 es = some (s', rs)) ∧
    (∀ left rs, b.run b.plain s0 es = some (.ended left, rs) → ∃ m s1 s2 r, m < es.length ∧ run plain s0 (es.take m) = some (s1, rs) ∧
      run plain s0 (es.take (m + 1)) = some (s2, rs ++ r.toList) ∧ (r = some .panic ∨ (s1.lp.io = .run ∧ s2.lp.io = .unwinding)) ∧ left = s2.disk) := by
  obtain ⟨h1, h2⟩ := openAt_build b (codecs := plain) (codecs' := b.plain) (fun _ => agree_crc b) () (u := u) (q := q) hp hf (openAt_header hopen)
  obtain ⟨g1, g2, _⟩ := run_build_ends b hb (codecs := plain) (codecs' := b.plain) (fun _ => agree_crc b) es (h2 s0 hopen) he hs
  exact ⟨h1.trans hopen, g1, g2⟩

theorem fits_sane {e : Ev ι} {page : Nat} (hp : page ≤ maxFile) (h : e.Fits page) : e.Sane := by
  cases e with
  | put k t bs => simp only [Ev.Fits, recordSize] at h; unfold maxFile at hp; simp only [Ev.Sane, SmallRec, Buffer.ofRaw]; omega
  | delete k => simp only [Ev.Fits, recordSize] at h; unfold maxFile at hp; simp only [Ev.Sane, SmallRec, Buffer.deleted]; omega
  | io o => exact h
  | clear => trivial
  | drop => trivial
  | api i => trivial

/-- **C92, all builds.** A file of whole records, any history of records that fit a page, whose live content stays small enough that the file stays below 4 GiB (C54): every build - also
the shipped ones - does exactly what the model does, and no call fails. -/
theorem C92_every_build_partial (b : Build) {page : Nat} (h8 : 8 ≤ page) {file : Bytes} {s0 : Inst Unit} {S0 : Store}
    {es : List (Ev Unit)} (hopen : openAt plain () page file = some s0) (h0 : s0.Shows S0)
    (hrec : RecordsFit page file ∨ Canonical file) (hfit : ∀ e ∈ es, e.Fits page) (hroom : page * (file.length + (calls es).length) + 8 < 2 ^ 64) {n L : Nat}
    (hlive : ∀ m, Store.Within (fun k e => recordSize k e.token e.bytes) n L (S0.run ((calls es).take m)))
    (hsmall : max (max page file.length) (8 + header file + L + page * max 1 n) ≤ 2 ^ 32 - 64) :
    b.openAt b.plain () page file = some s0 ∧ b.run b.plain s0 es = (run plain s0 es).map (fun p => (.running p.1, p.2)) ∧
      ∀ s rs, run plain s0 es = some (s, rs) → ∀ r ∈ rs, r = .ok () := by
  have hp : page ≤ maxFile := by unfold maxFile; omega
  have hf : file.length ≤ maxFile := by unfold maxFile; omega
  have h32 : page < 2 ^ 32 := by omega
  have hg0 := goodFile_of_open (h8 := h8) (h32 := h32) hopen hrec
  have hv := (shows_open hopen).1 h0
  rw [hv] at hg0
  obtain ⟨s1, hs1, hd1, _⟩ := dinv_open (E := plainEnv page h8 True) (i := ()) hg0
  have hopen' : openAt plain () page file = some s1 := hs1
  rw [hopen] at hopen'
  injection hopen' with hopen'
  subst hopen'
  have hsz : (fun (k : String) (e : Entry) => recordSize k e.token e.bytes) = entrySize (plainEnv page h8 True).recLen := by
    funext k e
    simp only [recordSize, entrySize, plainEnv, crcLen]
    omega
  rw [hsz] at hlive
  have hg1 : GInv (plainEnv page h8 True) (header file) L n (2 ^ 32 - 64) s0 := by
    refine ginv_open hs1 ?_ (by show (if file.length = 0 then page else file.length) ≤ _; split <;> omega)
    rw [hv]
    simpa [Store.run] using hlive 0
  have hall : ∀ m s rs, run plain s0 (es.take m) = some (s, rs) → s.lp.cb.ws.file.length ≤ maxFile ∧ s.lp.io ≠ .unwinding ∧ ∀ r ∈ rs, r = .ok () := by
    intro m s rs hr
    have hfit' : ∀ e ∈ es.take m, e.Ok (plainEnv page h8 True) := fun e he => (hfit e (List.mem_of_mem_take he)).ok h32
    have hpre : ∃ j, calls (es.take m) = (calls es).take j := by
      have : calls (es.take m) <+: calls es := by
        unfold calls; exact (List.take_prefix m es).filterMap _
      exact ⟨_, (List.prefix_iff_eq_take.1 this)⟩
    obtain ⟨j, hj⟩ := hpre
    have hlen : (calls (es.take m)).length ≤ (calls es).length := by rw [hj]; simp
    have hroom' : (plainEnv page h8 True).Room (file.length + ([] : List Mutation).length + (calls (es.take m)).length) := by
      refine plain_room ?_
      have : page * (file.length + ([] : List Mutation).length + (calls (es.take m)).length) ≤ page * (file.length + (calls es).length) :=
        Nat.mul_le_mul_left _ (by simp only [List.length_nil]; omega)
      omega
    obtain ⟨d1, d2⟩ := dinv_run _ hd1 hfit' hroom' hr
    have hg := ginv_run _ hd1 hg1 hfit' hroom' hr (by
      intro i
      rw [hj, List.take_take]
      simpa using hlive (min i j)) (by show 8 + header file + L + page * max 1 n ≤ _; omega)
    exact ⟨hg.len, d2.alive.1, d1⟩
  obtain ⟨b1, b2⟩ := openAt_build b (codecs := plain) (codecs' := b.plain) (fun _ => agree_crc b) () (u := 8) (q := none) hp hf (openAt_header hopen)
  refine ⟨b1.trans hopen, run_build_quiet b (fun _ => agree_crc b) es (b2 s0 hopen) (fun e he => fits_sane hp (hfit e he)) (fun m s rs hr => (hall m s rs hr).1)
    (fun m s rs hr => ⟨(hall m s rs hr).2.1, fun r hr' => fun hp' => (by have := (hall m s rs hr).2.2 r hr'; rw [hp'] at this; cases this)⟩), fun s rs hr => (hall es.length s rs (by rw [List.take_length]; exact hr)).2.2⟩

/-- **C92 with encryption.** The same for a store with any cipher whose plain texts are not longer than what they were decrypted from (the real one takes 16 bytes off). -/
theorem C92_encrypted_partial (C : Cipher) (hc : C.Shrinks) (b : Build) (hb : b.unwind = true) {i : Bytes × Bytes} {page : Nat} {file : Bytes} {u : Nat} {q : Option Nat} {s0 : Inst (Bytes × Bytes)}
    (hp : page ≤ maxFile) (hf : file.length ≤ maxFile) (hopen : openAt (encrypted C) i page file u q = some s0) {es : List (Ev (Bytes × Bytes))} (he : ∀ e ∈ es, e.Sane)
    (hs : SmallFile (encrypted C) s0 es) :
    b.openAt (b.encrypted C) i page file u q = some s0 ∧ b.run (b.encrypted C) s0 es = (run (encrypted C) s0 es).map fun p => (.running p.1, p.2) := by
  have ha : ∀ i, Agree (encrypted C i) (b.encrypted C i) := fun i => agree_aead b ⟨C, i.1, i.2⟩ hc
  obtain ⟨h1, h2⟩ := openAt_build b ha i (u := u) (q := q) hp hf (openAt_header hopen)
  exact ⟨h1.trans hopen, run_build_unwind b hb ha es (h2 s0 hopen) he hs⟩

/-! ### The claim is false -/

/-- **C92 is false of this program**: every file of at least eight bytes whose header is one of the last eight values of a `u64` - any damage that writes ones over it - makes a debug build
panic in `new` and is opened by a release build as an empty store, without a word. -/
theorem C92_refuted (b : Build) {page : Nat} {file : Bytes} (h8 : 8 ≤ file.length) (hh : 2 ^ 64 ≤ beVal (file.take 8) + 8) :
    (b.checks = true → b.openAt b.plain () page file = none) ∧
    (b.checks = false → ∃ s, b.openAt b.plain () page file = some s ∧ s.Shows Store.empty) := by
  have hconf : configNew page file = file := by unfold configNew; rw [if_neg (by omega)]
  have hlt : beVal (file.take 8) < 2 ^ 64 := by
    have := beVal_lt (file.take 8)
    have hl : (file.take 8).length = 8 := by simp; omega
    rw [hl] at this
    simpa using this
  unfold Build.openAt Build.openStore
  simp only [hconf]
  rw [if_neg (by omega)]
  have hw : Build.writeOffset b { file := file, mmLen := file.length, page := page, position := 0, needTrim := false, usizeBytes := 8, quota := none } =
      if b.checks then none else some ((beVal (file.take 8) + 8) % 2 ^ 64) := by
    unfold Build.writeOffset WState.lenOffset Build.add
    rw [if_neg (by simpa using h8), if_neg (by simp), if_neg (by simp only; omega)]
  constructor
  · intro hc
    unfold Build.readItems
    rw [hw, hc]
    rfl
  · intro hc
    have hitems : Build.readItems b (b.plain ()) { file := file, mmLen := file.length, page := page, position := 0, needTrim := false, usizeBytes := 8, quota := none } = some [] := by
      unfold Build.readItems
      rw [hw, hc]
      simp only [Bool.false_eq_true, if_false]
      rw [if_pos (by unfold WState.lenOffset; omega)]
    rw [hitems]
    refine ⟨_, rfl, ?_⟩
    intro α key token fromB
    rfl

/-- **C92 is false**, of the three builds there are: a file with such a header makes the debug build panic in `new`; the release build and the
shipped one open it as an empty store. -/
theorem C92_refuted_builds {page : Nat} {file : Bytes} (h8 : 8 ≤ file.length) (hh : 2 ^ 64 ≤ beVal (file.take 8) + 8) :
    Build.debug.openAt Build.debug.plain () page file = none ∧
    (∃ s, Build.release.openAt Build.release.plain () page file = some s ∧ s.Shows Store.empty) ∧
    (∃ s, Build.shipped.openAt Build.shipped.plain () page file = some s ∧ s.Shows Store.empty) :=
  ⟨(C92_refuted _ h8 hh).1 rfl, (C92_refuted _ h8 hh).2 rfl, (C92_refuted _ h8 hh).2 rfl⟩

/-- **C92**, of the debug and the release build: they do the same, under the conditions of `C92_partial`, panics included. -/
theorem C92_debug_release_partial {page : Nat} {file : Bytes} {u : Nat} {q : Option Nat} {s0 : Inst Unit} (hp : page ≤ maxFile)
    (hf : file.length ≤ maxFile) (hopen : openAt plain () page file u q = some s0) {es : List (Ev Unit)} (he : ∀ e ∈ es, e.Sane)
    (hs : SmallFile plain s0 es) :
    Build.debug.openAt Build.debug.plain () page file u q = some s0 ∧ Build.release.openAt Build.release.plain () page file u q = some s0 ∧
      Build.debug.run Build.debug.plain s0 es = Build.release.run Build.release.plain s0 es := by
  obtain ⟨a1, a2⟩ := C92_partial Build.debug rfl hp hf hopen he hs
  obtain ⟨b1, b2⟩ := C92_partial Build.release rfl hp hf hopen he hs
  exact ⟨a1, b1, a2.trans b2.symm⟩

/-- The shipped build differs from the release build just where a panic ends the process: one that does not unwind, on the first panic. -/
theorem C92_shipped_release_partial {page : Nat} {file : Bytes} {u : Nat} {q : Option Nat} {s0 : Inst Unit} (hp : page ≤ maxFile)
    (hf : file.length ≤ maxFile) (hopen : openAt plain () page file u q = some s0) {es : List (Ev Unit)} (he : ∀ e ∈ es, e.Sane)
    (hs : SmallFile plain s0 es) {s : Inst Unit} {rs : List (Out Unit)}
    (hrun : Build.shipped.run Build.shipped.plain s0 es = some (.running s, rs)) :
    Build.release.run Build.release.plain s0 es = some (.running s, rs) := by
  obtain ⟨_, g1, _⟩ := C92_shipped_partial Build.shipped rfl hp hf hopen he hs
  obtain ⟨_, b2⟩ := C92_partial Build.release rfl hp hf hopen he hs
  rw [b2, g1 _ _ hrun]
  rfl

/-- A page whose header is all ones. -/
def onesHeader : Bytes := List.replicate 8 255 ++ zeros 56

/-- **C92 is false**, end to end: a release build (its panics unwinding or not) opens such a file, a put returns `Ok`, its record is written by the background thread, the value can be read,
the store is closed - and opened again it is empty: the record was stored from offset 7, over the last byte of the header.  A debug build does not open the file in the first place. -/
theorem C92_refuted_lost (unw : Bool) : ∃ s0 s rs s', Build.openAt ⟨true, unw⟩ (Build.plain ⟨true, unw⟩) () 64 onesHeader = none ∧
    Build.openAt ⟨false, unw⟩ (Build.plain ⟨false, unw⟩) () 64 onesHeader = some s0 ∧
    Build.run ⟨false, unw⟩ (Build.plain ⟨false, unw⟩) s0 (fullPut "k" 0 [0, 0, 0, 7]) = some (.running s, rs) ∧ rs = [.ok ()] ∧
    s.lp.ran.length = 1 ∧ s.getAs "k" 0 (Out.ok : Bytes → Out Bytes) = .ok [0, 0, 0, 7] ∧
    Build.openAt ⟨false, unw⟩ (Build.plain ⟨false, unw⟩) () 64 s.disk = some s' ∧ s'.Shows Store.empty := by
  have h : (match Build.openAt ⟨true, unw⟩ (Build.plain ⟨true, unw⟩) () 64 onesHeader, Build.openAt ⟨false, unw⟩ (Build.plain ⟨false, unw⟩) () 64 onesHeader with
    | none, some s0 => match Build.run ⟨false, unw⟩ (Build.plain ⟨false, unw⟩) s0 (fullPut "k" 0 [0, 0, 0, 7]) with
      | some (.running s, rs) => match Build.openAt ⟨false, unw⟩ (Build.plain ⟨false, unw⟩) () 64 s.disk with
        | some s' => decide (rs = [.ok ()] ∧ s.lp.ran.length = 1 ∧ s.getAs "k" 0 (Out.ok : Bytes → Out Bytes) = .ok [0, 0, 0, 7] ∧ s'.kv = [] ∧ s'.poisoned = false ∧ s'.valid = true)
        | none => false
      | _ => false
    | _, _ => false) = true := by cases unw <;> decide +kernel
  split at h
  · rename_i s0 e1 e2
    split at h
    · rename_i s rs e3
      split at h
      · rename_i s' e4
        simp only [decide_eq_true_eq] at h
        obtain ⟨h1, h2, h3, h4, h5, h6⟩ := h
        refine ⟨s0, s, rs, s', e1, e2, e3, h1, h2, h3, e4, ?_⟩
        intro α key token fromB
        unfold Inst.getAs
        rw [h4, h5, h6]
        rfl
      · cases h
    · cases h
  · cases h

/-- The second put of this history finds a disk that grants no second page. -/
def secondPage : List (Ev Unit) := fullPut "a" 6 (List.replicate 44 7) ++ [.put "b" 6 [1], .api (), .api (), .io id, .io id, .io id, .io id, .put "c" 6 [1], .api (), .api ()]

/-- **C92 is false** of the shipped builds: two puts return `Ok` on a disk that grants the file one page; in a build whose panics unwind, the thread dies, the third put returns an error and
the process goes on; in the builds shipped for Android and iOS the process is ended while the second record is written. -/
theorem C92_refuted_ends (checks : Bool) : ∃ s0 s left, openAt plain () 64 [] 8 (some 64) = some s0 ∧
    Build.run ⟨checks, true⟩ (Build.plain ⟨checks, true⟩) s0 secondPage = some (.running s, [.ok (), .ok (), .err ioErr]) ∧
    Build.run ⟨checks, false⟩ (Build.plain ⟨checks, false⟩) s0 secondPage = some (.ended left, [.ok (), .ok ()]) ∧ left = s.disk := by
  have h : (match openAt plain () 64 [] 8 (some 64) with
    | some s0 => match Build.run ⟨checks, true⟩ (Build.plain ⟨checks, true⟩) s0 secondPage, Build.run ⟨checks, false⟩ (Build.plain ⟨checks, false⟩) s0 secondPage with
      | some (.running s, rs), some (.ended left, rs') => decide (rs = [.ok (), .ok (), .err ioErr] ∧ rs' = [.ok (), .ok ()] ∧ left = s.disk)
      | _, _ => false
    | none => false) = true := by cases checks <;> decide +kernel
  split at h
  · rename_i s0 e1
    split at h
    · rename_i s rs left rs' e2 e3
      simp only [decide_eq_true_eq] at h
      obtain ⟨rfl, rfl, h3⟩ := h
      exact ⟨s0, s, left, e1, e2, e3, h3⟩
    · cases h
  · cases h

/-! ### The hypotheses can be met -/

/-- `C92_every_build_partial`: four overwrites of one key with 64-byte pages, in the shipped build. -/
example : ∃ s0 s rs, openAt plain () 64 [] = some s0 ∧ Build.run .shipped (Build.plain .shipped) s0 demoOverwrite = some (.running s, rs) ∧ rs.length = 4 ∧ s.disk.length = 64 := by
  obtain ⟨s0, s, rs, h1, h2, h3, h4, h5, h6, h7, h8⟩ := demoOverwrite_meets
  obtain ⟨_, g2, _⟩ := C92_every_build_partial .shipped (by decide) h1 h2 (.inr h6) h7 (by decide) h8 (by decide)
  rw [h3] at g2
  exact ⟨s0, s, rs, h1, g2, h4, h5⟩

/-- `C92_partial` and `C92_shipped_partial`: a disk that grants one page, the failure of C92_refuted_ends; the release build does what the model does. -/
example : ∃ s0 s, openAt plain () 64 [] 8 (some 64) = some s0 ∧ SmallFile plain s0 secondPage ∧ (∀ e ∈ secondPage, e.Sane) ∧
    run plain s0 secondPage = some (s, [.ok (), .ok (), .err ioErr]) ∧
    Build.run .release (Build.plain .release) s0 secondPage = some (.running s, [.ok (), .ok (), .err ioErr]) := by
  have h : (match openAt plain () 64 [] 8 (some 64) with
    | some s0 => ((List.range 18).all fun m => match run plain s0 (secondPage.take m) with
        | some (s', _) => decide (s'.lp.cb.ws.file.length ≤ 64)
        | none => true) && passes (run plain s0 secondPage) fun _ rs => decide (rs = [.ok (), .ok (), .err ioErr])
    | none => false) = true := by decide +kernel
  split at h
  · rename_i s0 e1
    rw [Bool.and_eq_true] at h
    obtain ⟨h1, h2⟩ := h
    obtain ⟨s, rs, h3, h4⟩ := exists_of_passes h2
    rw [List.all_eq_true] at h1
    simp only [decide_eq_true_eq] at h4
    subst h4
    have hsm : SmallFile plain s0 secondPage := by
      intro m s' rs hr
      have hm : ∃ m' ∈ List.range 18, secondPage.take m = secondPage.take m' := by
        by_cases hm : m < 18
        · exact ⟨m, by simpa using hm, rfl⟩
        · refine ⟨17, by simp, ?_⟩
          rw [List.take_of_length_le (by simp [secondPage, fullPut]; omega), List.take_of_length_le (by simp [secondPage, fullPut])]
      obtain ⟨m', hm', he⟩ := hm
      rw [he] at hr
      have := h1 m' hm'
      rw [hr] at this
      simp only [decide_eq_true_eq] at this
      unfold maxFile
      omega
    have hsane : ∀ e ∈ secondPage, e.Sane := by
      intro e he
      simp only [secondPage, fullPut, List.cons_append, List.nil_append, List.mem_cons, List.not_mem_nil, or_false] at he
      rcases he with rfl | rfl | rfl | rfl | rfl | rfl | rfl | rfl | rfl | rfl | rfl | rfl | rfl | rfl | rfl | rfl | rfl <;>
        simp only [Ev.Sane, SmallRec] <;> first | decide +kernel | exact fun l => List.reverse_perm l | exact fun l => List.Perm.refl l
    obtain ⟨_, g2⟩ := C92_partial .release rfl (by decide) (by decide) e1 hsane hsm
    rw [h3] at g2
    exact ⟨s0, s, e1, hsm, hsane, h3, g2⟩
  · cases h

/-- The toy cipher meets the condition of `C92_encrypted_partial`. -/
example : toy.Shrinks := by
  intro k n i x p h
  simp only [toy] at h
  split at h
  · injection h with h; subst h; simp
  · cases h

end Mmkv
