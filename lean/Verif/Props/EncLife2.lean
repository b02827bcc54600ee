import Verif.Props.EncLife
import Verif.Props.Latency
import Verif.Props.Format
import Verif.Props.Bounded
import Verif.Props.User

/-!
# The life of any directory, plain or encrypted: C55, C64, C67, C80

`C55`, `C64`, `C67` and `C80` again, for encrypted directories and for directories that have been used before.
-/

namespace Mmkv
open Inst Spec Format

/-! ### C67 -/

/-- The background thread can move while anything waits (src/core/io_looper.rs:60-77 signals after every push). -/
theorem never_stuck {ι : Type} {E : Env ι} {S0 : Store} {K : Nat} {cs : List Mutation} {s : Inst ι} (hd : DInv E S0 K cs s)
    (hidle : s.phase = .idle) (hw : 0 < s.waiting) (o : Order) : (step E.codecs s (.io o)).isSome := by
  have hdue := due_idle hd hidle
  have hlt : s.lp.ran.length < s.lp.pushed.length := by
    obtain ⟨cb0, _, hinv⟩ := hd.book.inv
    have h1 := congrArg List.length hinv.split
    simp only [List.length_append, List.length_map, hd.book.late, List.length_nil] at h1
    unfold Inst.waiting at hw
    omega
  have := Looper.due_enabled (exec := fun o j cb => execJob (E.codecs s.idx) o j cb) o hdue hlt
  obtain ⟨lp, hlp⟩ := Option.isSome_iff_exists.1 this
  simp only [step]
  rw [hlp]
  rfl

/-- **C67** in a directory with a past: no more mutations wait than calls were made in this session, and while any waits and no call is
under way the background thread can make a step. -/
theorem C67_with_past {page : Nat} (h8 : 8 ≤ page) (h32 : page < 2 ^ 32) {xs : List (Session Unit)} {rss : List (List (Out Unit))}
    {d : Dir Unit} (hl : Life plain page Dir.fresh xs rss d) (hfit : ∀ x ∈ xs, ∀ e ∈ x.evs, e.Fits page)
    {s0 s : Inst Unit} {es : List (Ev Unit)} {rs : List (Out Unit)} (hopen : openAt plain () page d.file = some s0)
    (hrun : run plain s0 es = some (s, rs)) (hfit' : ∀ e ∈ es, e.Fits page)
    (hroom : page * (callCount xs + (calls es).length) + 8 < 2 ^ 64) :
    s.waiting ≤ (calls es).length ∧ (s.phase = .idle → 0 < s.waiting → ∀ o, (step plain s (.io o)).isSome) := by
  obtain ⟨S, _, _, _, hd⟩ := plain_session h8 h32 hl hfit hopen hrun hfit' hroom
  exact ⟨waiting_le_calls hd, fun hi hw o => never_stuck hd hi hw o⟩

theorem inst_run_append {ι : Type} {codecs : ι → Codec} (es es' : List (Ev ι)) {s s1 s2 : Inst ι} {rs rs' : List (Out Unit)}
    (h : run codecs s es = some (s1, rs)) (h' : run codecs s1 es' = some (s2, rs')) : run codecs s (es ++ es') = some (s2, rs ++ rs') := by
  induction es generalizing s rs with
  | nil => simp only [run, Option.some.injEq, Prod.mk.injEq] at h; obtain ⟨rfl, rfl⟩ := h; exact h'
  | cons e es ih =>
    simp only [run, List.cons_append] at h ⊢
    split at h
    · cases h
    · rename_i s3 r hs
      split at h
      · cases h
      · rename_i s4 rs4 hr
        injection h with h
        injection h with h1 h2
        subst h1
        rw [ih hr]
        simp [← h2]

/-- `latency` for the directory left, rather than one way of opening it. -/
theorem latency_dir {ι : Type} {E : Env ι} {S0 : Store} {K : Nat} {s1 s2 : Inst ι} {cs : List Mutation} {es2 : List (Ev ι)}
    {rs2 : List (Out Unit)} (hd1 : DInv E S0 K cs s1) (hidle : s1.phase = .idle) (hr2 : run E.codecs s1 es2 = some (s2, rs2))
    (hok2 : ∀ e ∈ es2, e.Ok E) (hroom : E.Room (K + cs.length + (calls es2).length)) (hn : s1.waiting + 3 ≤ es2.countP Ev.isIo) :
    ∃ m, cs.length ≤ m ∧ m ≤ (cs ++ calls es2).length ∧
      GoodDir E (K + (cs ++ calls es2).length) s2.dir (S0.run ((cs ++ calls es2).take m)) := by
  have hne : Nonempty ι := ⟨s1.idx⟩
  obtain ⟨pre, hat⟩ := hd1.dat
  obtain ⟨post, K0, content, items, hcs, htr, _⟩ := hat.ex
  have hj : s1.jobs.map Job.mutation = s1.lp.pushed.map Job.mutation := by simp [jobs, hidle, Phase.inflight]
  rw [hj] at htr
  rw [hcs] at hat hroom ⊢
  have hdue := due_idle hd1 hidle
  obtain ⟨m, h1, h2, h3⟩ := late_run (b := []) es2 (by rw [List.append_nil]; exact hat) htr (by simpa using hdue) hok2 hn
    (by rw [List.append_nil]; exact hroom) hr2 s2.idx (fun _ => rfl)
  rw [List.append_nil] at h2 h3
  refine ⟨m, h1, h2, fun i hi => ?_⟩
  cases hrm : s2.lp.cb.removed with
  | false =>
    have : i = s2.idx := hi _ (by simp [dir, hrm])
    subst this
    exact h3
  | true =>
    have hnil : s2.disk = [] := by simp [disk, hrm]
    have hnil' : s2.dir.file = [] := hnil
    rw [hnil] at h3
    rw [hnil']
    generalize S0.run ((pre ++ post ++ calls es2).take m) = T at h3 ⊢
    generalize hb : ([] : Bytes) = f at h3 ⊢
    cases h3 with
    | empty => exact .empty
    | held hh => subst hb; exact absurd hh.len (by simp)

/-- **C67** for an encrypted directory with a past: the whole of it. -/
theorem C67_encrypted_with_past (C : Cipher) {page : Nat} (h8 : 8 ≤ page) (h32 : page < 2 ^ 32) {key : String} {k : Bytes}
    (hk : decodeKey key = some k) {xs : List EncSession} {rss : List (List (Out Unit))} {d : EncDir}
    (hl : EncLife C page EncDir.fresh xs rss d) (hs : SameKey key k page xs) {rand : Bytes} (hrand : rand.length = 11)
    {s0 s1 s2 : Inst (Bytes × Bytes)} {es1 es2 : List (Ev (Bytes × Bytes))} {rs1 rs2 : List (Out Unit)}
    (hopen : openEnc C page key rand d = some s0) (hr1 : run (encrypted C) s0 es1 = some (s1, rs1)) (hidle : s1.phase = .idle)
    (hr2 : run (encrypted C) s1 es2 = some (s2, rs2)) (hfit : ∀ e ∈ es1 ++ es2, e.EncFits k page)
    (hroom : page * (encCallCount xs + (calls es1).length + (calls es2).length) + 8 < 2 ^ 64)
    (hctr : encCallCount xs + (calls es1).length + (calls es2).length < 2 ^ 32 - 1) :
    ∃ S, s0.Shows S ∧ s1.waiting ≤ (calls es1).length ∧ (0 < s1.waiting → ∀ o, (step (encrypted C) s1 (.io o)).isSome) ∧
      (s1.waiting + 3 ≤ es2.countP Ev.isIo → ∃ m, (calls es1).length ≤ m ∧ m ≤ (calls es1 ++ calls es2).length ∧
        ∀ half rand', ∃ s', openEnc C page key rand' (encLeft s2 half) = some s' ∧ s'.Shows (S.run ((calls es1 ++ calls es2).take m))) := by
  have hmul1 : page * (0 + encCallCount xs) ≤ page * (encCallCount xs + (calls es1).length + (calls es2).length) :=
    Nat.mul_le_mul_left _ (by omega)
  have hmul2 : page * (encCallCount xs + (calls es1).length) ≤ page * (encCallCount xs + (calls es1).length + (calls es2).length) :=
    Nat.mul_le_mul_left _ (by omega)
  obtain ⟨_, S, hS, hg⟩ := encLife_good (h8 := h8) h32 hk hl (K := 0) encGood_fresh hs (by omega) (by omega)
  rw [Nat.zero_add] at hg
  have hf1 : ∀ e ∈ es1, e.EncFits k page := fun e he => hfit e (List.mem_append_left _ he)
  have hf2 : ∀ e ∈ es2, e.EncFits k page := fun e he => hfit e (List.mem_append_right _ he)
  obtain ⟨hsh, _, hd1, _, _⟩ := encGood_session h32 hk hg hrand hopen hr1 hf1 (by omega) (by omega)
  refine ⟨S, hsh, waiting_le_calls hd1, fun hw o => never_stuck hd1 hidle hw o, fun hn => ?_⟩
  have hcalls : calls (es1 ++ es2) = calls es1 ++ calls es2 := by simp [calls]
  obtain ⟨_, _, _, hi1, hi2⟩ := encGood_session h32 hk hg hrand hopen (inst_run_append es1 es2 hr1 hr2) hfit
    (by rw [hcalls, List.length_append, ← Nat.add_assoc]; exact hroom) (by rw [hcalls, List.length_append, ← Nat.add_assoc]; exact hctr)
  obtain ⟨m, h1, h2, h3⟩ := latency_dir hd1 hidle hr2 (fun e he => (hf2 e he).ok h32)
    ⟨by simpa [encEnv] using hroom, by simpa [encEnv, aeadPos, counterMax] using hctr⟩ hn
  exact ⟨m, h1, h2, fun half rand' => openEnc_good hk (encGood_left h3 hi1 hi2 half) rand'⟩

/-! ### C80 -/

theorem rest_has_file {ι : Type} {E : Env ι} {S0 : Store} {K : Nat} {cs : List Mutation} {s : Inst ι} (hd : DInv E S0 K cs s)
    (hnr : s.lp.cb.removed = false) : s.disk ≠ [] := by
  intro hnil
  obtain ⟨_, _, _, content, items, _, _, hw, _, _⟩ := hd.ex
  have := hw.holds.len
  have hd' : s.disk = s.lp.cb.ws.file := by simp [disk, hnr]
  rw [← hd', hnil] at this
  simp at this

/-- **C80**, at rest, in a directory with a past: the records of the file stand for what the session found, plus exactly its calls. -/
theorem C80_at_rest_with_past {page : Nat} (h8 : 8 ≤ page) (h32 : page < 2 ^ 32) {xs : List (Session Unit)} {rss : List (List (Out Unit))}
    {d : Dir Unit} (hl : Life plain page Dir.fresh xs rss d) (hfit : ∀ x ∈ xs, ∀ e ∈ x.evs, e.Fits page)
    {s0 s : Inst Unit} {es : List (Ev Unit)} {rs : List (Out Unit)} (hopen : openAt plain () page d.file = some s0)
    (hrun : run plain s0 es = some (s, rs)) (hfit' : ∀ e ∈ es, e.Fits page)
    (hroom : page * (callCount xs + (calls es).length) + 8 < 2 ^ 64)
    (hidle : s.phase = .idle) (hrest : ∀ o, step plain s (.io o) = none) :
    ∃ S kvs, s0.Shows S ∧ File s.disk kvs ∧ contents kvs = S.run (calls es) := by
  obtain ⟨S, _, hsh, _, hd⟩ := plain_session h8 h32 hl hfit hopen hrun hfit' hroom
  obtain ⟨hnr, hg⟩ := rest_good hd hidle hrest
  rcases goodFile_format hg with ⟨hnil, _⟩ | ⟨kvs, h1, h2⟩
  · exact absurd hnil (rest_has_file hd hnr)
  · exact ⟨S, kvs, hsh, h1, h2⟩

/-- **C80**, at rest, with encryption: the nonce file is there, the data file follows the encrypted format under it and the key, and its
records stand for what the session found, plus exactly its calls. -/
theorem C80_at_rest_encrypted (C : Cipher) {page : Nat} (h8 : 8 ≤ page) (h32 : page < 2 ^ 32) {key : String} {k : Bytes}
    (hk : decodeKey key = some k) {xs : List EncSession} {rss : List (List (Out Unit))} {d : EncDir}
    (hl : EncLife C page EncDir.fresh xs rss d) (hs : SameKey key k page xs) {rand : Bytes} (hrand : rand.length = 11)
    {s0 s : Inst (Bytes × Bytes)} {es : List (Ev (Bytes × Bytes))} {rs : List (Out Unit)}
    (hopen : openEnc C page key rand d = some s0) (hrun : run (encrypted C) s0 es = some (s, rs)) (hfit : ∀ e ∈ es, e.EncFits k page)
    (hroom : page * (encCallCount xs + (calls es).length) + 8 < 2 ^ 64) (hctr : encCallCount xs + (calls es).length < 2 ^ 32 - 1)
    (hidle : s.phase = .idle) (hrest : ∀ o, step (encrypted C) s (.io o) = none) :
    ∃ S nonce kvs, s0.Shows S ∧ (encLeft s false).nonceFile = some nonce ∧ nonce.length = 11 ∧
      SealedFile (openSealed C k nonce) s.disk kvs ∧ contents kvs = S.run (calls es) := by
  have hr1 : page * (0 + encCallCount xs) ≤ page * (encCallCount xs + (calls es).length) := Nat.mul_le_mul_left page (by omega)
  obtain ⟨_, S, hS, hg⟩ := encLife_good (h8 := h8) h32 hk hl (K := 0) encGood_fresh hs (by omega) (by omega)
  rw [Nat.zero_add] at hg
  obtain ⟨hsh, hrs, hd, hi1, hi2⟩ := encGood_session h32 hk hg hrand hopen hrun hfit hroom hctr
  obtain ⟨hnr, hgf⟩ := rest_good hd hidle hrest
  have hne := rest_has_file hd hnr
  refine ⟨S, s.idx.2, ?_⟩
  have hidx : s.idx = (k, s.idx.2) := by rw [← hi1]
  rw [hidx] at hgf
  generalize s.disk = f at hgf hne ⊢
  generalize hT : S.run (calls es) = T at hgf ⊢
  cases hgf with
  | empty => exact absurd rfl hne
  | held hh hfr _ _ _ _ hn =>
    obtain ⟨kvs, hkv, rfl⟩ := framed_sealed hfr hn
    obtain ⟨hb, tail, rfl⟩ := hh
    refine ⟨kvs, hsh, by simp [encLeft, hnr], hi2, ⟨_, _, tail, List.append_assoc .., by simp, ?_, hkv⟩, ?_⟩
    · rw [num_eq_beVal, beVal_beBytes _ _ (by omega)]
    · rw [mutations_kvs]; rfl

/-! ### C55 -/

theorem growth_encLife {C : Cipher} {page : Nat} {h8 : 8 ≤ page} (h32 : page < 2 ^ 32) {key : String} {k : Bytes}
    (hk : decodeKey key = some k) {n L : Nat} {d d' : EncDir} {xs : List EncSession}
    {rss : List (List (Out Unit))} (hl : EncLife C page d xs rss d') :
    ∀ {K : Nat} {S0 : Store}, EncGood C page h8 k K d S0 → SameKey key k page xs →
    page * (K + encCallCount xs) + 8 < 2 ^ 64 → K + encCallCount xs < 2 ^ 32 - 1 →
    (∀ pre x post, xs = pre ++ x :: post → ∀ S, Survives S0 (encCalls pre) S → ∀ m,
      Store.Within (fun k e => encRecordSize k e.token e.bytes) n L (S.run ((calls x.evs).take m))) →
    d'.file.length ≤ max page d.file.length + xs.length * (L + page * max 1 n) := by
  induction hl with
  | nil d => intro K S0 _ _ _ _ _; simp
  | @cons d d' x xs s s' rs rss ho hr hc rest ih =>
    intro K S0 hg hs hroom hctr hlive
    have hcnt : encCallCount (x :: xs) = (calls x.evs).length + encCallCount xs := by simp [encCallCount]
    rw [hcnt] at hroom hctr
    have hmul : page * (K + (calls x.evs).length) ≤ page * (K + ((calls x.evs).length + encCallCount xs)) :=
      Nat.mul_le_mul_left _ (by omega)
    have hkey : x.key = key := hs.key x List.mem_cons_self
    rw [hkey] at ho
    obtain ⟨hsh, hrs, hd, hi1, hi2⟩ := encGood_session h32 hk hg (hs.rand x List.mem_cons_self) ho hr (hs.fits x List.mem_cons_self)
      (by omega) (by omega)
    obtain ⟨m, hm, hmc, hg'⟩ := goodDir_end hd x.clean hc
    rw [openEnc_eq hk] at ho
    have hgx := hg x.rand
    obtain ⟨s1, hs1, hinv, _⟩ := dinv_open (E := encEnv C page h8 False) (i := (k, initNonce d.nonceFile x.rand)) hgx
    have hs1' : openAt (encrypted C) (k, initNonce d.nonceFile x.rand) page d.file = some s1 := hs1
    rw [ho] at hs1'
    injection hs1' with hs1'
    subst hs1'
    have hroom1 : (encEnv C page h8 False).Room (K + ([] : List Mutation).length + (calls x.evs).length) := by
      refine ⟨by simp only [encEnv, List.length_nil, Nat.add_zero]; omega, ?_⟩
      simp only [encEnv, aeadPos, counterMax, List.length_nil]
      omega
    have hok := fun e he => (hs.fits x List.mem_cons_self e he).ok (C := C) (h8 := h8) (dirty := False) h32
    have hsz : (fun (k : String) (e : Entry) => encRecordSize k e.token e.bytes) = entrySize (encEnv C page h8 False).recLen := by
      funext k e
      simp only [encRecordSize, entrySize, encEnv, aeadLen]
      omega
    have hlive0 : ∀ m, Store.Within (entrySize (encEnv C page h8 False).recLen) n L (S0.run ((calls x.evs).take m)) := by
      intro m
      rw [← hsz]
      exact hlive [] x xs rfl S0 (.nil _) m
    have hv : view s.kv = S0 := by simpa [Store.run] using hinv.kvView
    have hhdr : header d.file + 8 ≤ max page d.file.length := by
      generalize d.file = f at hgx ⊢
      cases hgx with
      | empty =>
        have : header [] = 0 := by decide
        omega
      | held hh =>
        have h1 := hh.header
        have h2 := hh.len
        unfold header
        omega
    have hg1 : GInv (encEnv C page h8 False) (header d.file) L n (max page d.file.length + (L + page * max 1 n)) s := by
      refine ginv_open hs1 ?_ ?_
      · rw [hv]
        simpa [Store.run] using hlive0 0
      · show (if d.file.length = 0 then page else d.file.length) ≤ _
        split <;> omega
    have hg2 := ginv_run x.evs hinv hg1 hok hroom1 hr (by simpa using hlive0) (by
      show 8 + header d.file + L + page * max 1 n ≤ _
      omega)
    have hdisk : s'.disk.length ≤ max page d.file.length + (L + page * max 1 n) := by
      have := hg2.len
      unfold Inst.disk
      split
      · simp
      · exact this
    have hrec := ih (encGood_left hg' hi1 hi2 x.half)
      ⟨fun y hy => hs.key y (List.mem_cons_of_mem _ hy), fun y hy => hs.rand y (List.mem_cons_of_mem _ hy),
        fun y hy => hs.fits y (List.mem_cons_of_mem _ hy)⟩ (by rw [Nat.add_assoc]; exact hroom) (by omega) (by
      intro pre y post hxs S hS m'
      exact hlive (x :: pre) y post (by rw [hxs]; rfl) S (.cons m hm hmc hS) m')
    have hle : (encLeft s' x.half).file.length = s'.disk.length := rfl
    rw [hle] at hrec
    simp only [List.length_cons, Nat.add_mul, Nat.one_mul]
    omega

/-- **C55**, encrypted, what is true of it: as `C55_growth_partial`, under one key. -/
theorem C55_encrypted_partial (C : Cipher) {page : Nat} (h8 : 8 ≤ page) (h32 : page < 2 ^ 32) {key : String} {k : Bytes}
    (hk : decodeKey key = some k) {xs : List EncSession} {rss : List (List (Out Unit))} {d : EncDir}
    (hl : EncLife C page EncDir.fresh xs rss d) (hs : SameKey key k page xs)
    (hroom : page * encCallCount xs + 8 < 2 ^ 64) (hctr : encCallCount xs < 2 ^ 32 - 1) {n L : Nat}
    (hlive : ∀ pre x post, xs = pre ++ x :: post → ∀ S, Survives Store.empty (encCalls pre) S → ∀ m,
      Store.Within (fun k e => encRecordSize k e.token e.bytes) n L (S.run ((calls x.evs).take m))) :
    d.file.length ≤ page + xs.length * (L + page * max 1 n) := by
  have := growth_encLife (h8 := h8) h32 hk hl (K := 0) encGood_fresh hs (by rw [Nat.zero_add]; exact hroom) (by omega) hlive
  simpa [EncDir.fresh] using this

/-! ### C64 -/

theorem mem_beforePanic {ι : Type} : ∀ {es : List (UEv ι)} {x : Ev ι}, x ∈ beforePanic es → ∃ e ∈ es, e.asEv = some x
  | e :: es, x, h => by
    simp only [beforePanic] at h
    split at h
    · rename_i y hy
      rcases List.mem_cons.1 h with rfl | h
      · exact ⟨e, List.mem_cons_self, hy⟩
      · obtain ⟨e', h1, h2⟩ := mem_beforePanic h
        exact ⟨e', List.mem_cons_of_mem _ h1, h2⟩
    · cases h

/-- A session in which user code may panic, on any good file. -/
theorem user_session {ι : Type} {E : Env ι} {i : ι} {K : Nat} {file : Bytes} {S0 : Store} {s0 s : Inst ι} {es : List (UEv ι)}
    {rs : List (Out Unit)} (hg : GoodFile E (E.codecs i) K file S0) (hopen : openAt E.codecs i E.page file = some s0)
    (hrun : runU E.codecs s0 es = some (s, rs)) (hclosed : s.closedOk) (hok : ∀ e ∈ es, ∀ x, e.asEv = some x → x.Ok E)
    (hroom : E.Room (K + (calls (beforePanic es)).length)) :
    (∃ failed, rs = List.replicate (calls (beforePanic es)).length (.ok ()) ++ failed ∧
      ∀ r ∈ failed, r = .panic ∨ r = .err (.lockError "")) ∧
    ∃ s1 fs rs1, Inst.run E.codecs s0 (beforePanic es ++ fs) = some (s1, rs1) ∧ (∀ x ∈ fs, UEv.ev x ∈ es) ∧
      s.lp = s1.lp ∧ s.idx = s1.idx ∧
      DInv E S0 K (calls (beforePanic es)) s1 ∧ GoodDir E (K + (calls (beforePanic es)).length) s.dir (S0.run (calls (beforePanic es))) := by
  obtain ⟨s1, rs1, rs2, fs, rfl, hr, hfs, h3, h4, h5, h6⟩ := split_u es hrun
  have hcalls : calls (beforePanic es ++ fs) = calls (beforePanic es) := by
    have : calls fs = [] := by
      unfold calls
      rw [List.filterMap_eq_nil_iff]
      exact fun e he => (hfs e he).2
    rw [show calls (beforePanic es ++ fs) = calls (beforePanic es) ++ calls fs by simp [calls], this, List.append_nil]
  have hcl : s1.closedOk := by
    obtain ⟨a, b⟩ := hclosed
    exact ⟨by rw [← h4]; exact a, by rw [← h3]; exact b⟩
  obtain ⟨s0', hs0, hd0, _⟩ := dinv_open hg
  rw [hopen] at hs0
  injection hs0 with hs0
  subst hs0
  obtain ⟨hrs, hd⟩ := dinv_run (beforePanic es ++ fs) hd0 (by
    intro e he
    rcases List.mem_append.1 he with he | he
    · obtain ⟨e', h1, h2⟩ := mem_beforePanic he
      exact hok e' h1 e h2
    · exact hok _ (hfs e he).1 e rfl) (by simpa [hcalls] using hroom) hr
  rw [List.nil_append, hcalls] at hd
  obtain ⟨m, hm, hmc, hgd⟩ := goodDir_end hd true (fun _ => hcl)
  rw [hmc rfl, List.take_length] at hgd
  have hdir : s.dir = s1.dir := by simp only [Inst.dir, disk, h3, h5]
  refine ⟨⟨rs2, ?_, h6⟩, s1, fs, rs1, hr, fun x hx => (hfs x hx).1, h3, h5, hd, by rw [hdir]; exact hgd⟩
  have hcount := returns_run _ hr
  have a0 : s0.pendingCall = 0 := by simp [pendingCall, (openAt_idle hopen).1]
  have a1 : s1.pendingCall = 0 := by simp [pendingCall, hcl.1]
  rw [hcalls, a0, a1] at hcount
  have : rs1 = List.replicate rs1.length (.ok ()) := List.eq_replicate_iff.2 ⟨rfl, hrs⟩
  rw [this]
  have : rs1.length = (calls (beforePanic es)).length := by omega
  rw [this]

/-- **C64** in a directory with a past, what is true: as `C64_partial`. -/
theorem C64_with_past_partial {page : Nat} (h8 : 8 ≤ page) (h32 : page < 2 ^ 32) {xs : List (Session Unit)} {rss : List (List (Out Unit))}
    {d : Dir Unit} (hl : Life plain page Dir.fresh xs rss d) (hfit : ∀ x ∈ xs, ∀ e ∈ x.evs, e.Fits page)
    {s0 s : Inst Unit} {es : List (UEv Unit)} {rs : List (Out Unit)} (hopen : openAt plain () page d.file = some s0)
    (hrun : runU plain s0 es = some (s, rs)) (hclosed : s.closedOk) (hfit' : ∀ e ∈ es, ∀ x, e.asEv = some x → x.Fits page)
    (hroom : page * (callCount xs + (calls (beforePanic es)).length) + 8 < 2 ^ 64) :
    (∃ failed, rs = List.replicate (calls (beforePanic es)).length (.ok ()) ++ failed ∧
      ∀ r ∈ failed, r = .panic ∨ r = .err (.lockError "")) ∧
    ∃ S s', s0.Shows S ∧ openAt plain () page s.disk = some s' ∧ s'.Shows (S.run (calls (beforePanic es))) := by
  have hr1 : page * callCount xs ≤ page * (callCount xs + (calls (beforePanic es)).length) := Nat.mul_le_mul_left _ (by omega)
  obtain ⟨_, S, hS, hg⟩ := life_survives (E := plainEnv page h8 False) (K := 0) hl (goodDir_fresh _ 0)
    (fun x hx e he => (hfit x hx e he).ok h32) (by rw [Nat.zero_add]; exact plain_room (by omega))
  rw [Nat.zero_add] at hg
  have hgf := hg () (fun _ _ => rfl)
  obtain ⟨s1, hs1, hd1, _⟩ := dinv_open hgf
  have hopen' : openAt plain () page d.file = some s1 := hs1
  rw [hopen] at hopen'
  injection hopen' with hopen'
  subst hopen'
  obtain ⟨h1, _, _, _, _, _, _, _, _, h2⟩ := user_session hgf hopen hrun hclosed (fun e he x hx => (hfit' e he x hx).ok h32) (plain_room hroom)
  obtain ⟨s', hs', hv⟩ := openAt_goodDir h2 () (fun _ _ => rfl)
  exact ⟨h1, S, s', shows_of_view hs1 (by simpa [Store.run] using hd1.kvView), hs', shows_of_view hs' hv⟩

/-- **C64** for an encrypted directory, what is true: as `C64_partial`. -/
theorem C64_encrypted_partial (C : Cipher) {page : Nat} (h8 : 8 ≤ page) (h32 : page < 2 ^ 32) {key : String} {k : Bytes}
    (hk : decodeKey key = some k) {xs : List EncSession} {rss : List (List (Out Unit))} {d : EncDir}
    (hl : EncLife C page EncDir.fresh xs rss d) (hs : SameKey key k page xs) {rand : Bytes} (hrand : rand.length = 11)
    {s0 s : Inst (Bytes × Bytes)} {es : List (UEv (Bytes × Bytes))} {rs : List (Out Unit)} (hopen : openEnc C page key rand d = some s0)
    (hrun : runU (encrypted C) s0 es = some (s, rs)) (hclosed : s.closedOk) (hfit : ∀ e ∈ es, ∀ x, e.asEv = some x → x.EncFits k page)
    (hroom : page * (encCallCount xs + (calls (beforePanic es)).length) + 8 < 2 ^ 64)
    (hctr : encCallCount xs + (calls (beforePanic es)).length < 2 ^ 32 - 1) :
    (∃ failed, rs = List.replicate (calls (beforePanic es)).length (.ok ()) ++ failed ∧
      ∀ r ∈ failed, r = .panic ∨ r = .err (.lockError "")) ∧
    ∃ S, s0.Shows S ∧ ∀ rand' half, ∃ s', openEnc C page key rand' (encLeft s half) = some s' ∧ s'.Shows (S.run (calls (beforePanic es))) := by
  have hr1 : page * (0 + encCallCount xs) ≤ page * (encCallCount xs + (calls (beforePanic es)).length) := Nat.mul_le_mul_left _ (by omega)
  obtain ⟨_, S, hS, hg⟩ := encLife_good (h8 := h8) h32 hk hl (K := 0) encGood_fresh hs (by omega) (by omega)
  rw [Nat.zero_add] at hg
  have hopen' := hopen
  rw [openEnc_eq hk] at hopen'
  obtain ⟨h1, s1, fs, rs1, hr, hfs, _, h5, hd, h2⟩ := user_session (E := encEnv C page h8 False) (i := (k, initNonce d.nonceFile rand)) (hg rand) hopen'
    hrun hclosed (fun e he x hx => (hfit e he x hx).ok h32)
    ⟨by simpa [encEnv] using hroom, by simpa [encEnv, aeadPos, counterMax] using hctr⟩
  obtain ⟨s2, hs2, hsh⟩ := openEnc_good hk hg rand
  rw [hopen] at hs2
  injection hs2 with hs2
  subst hs2
  have hidx : s.idx.1 = k ∧ s.idx.2.length = nonceLen := by
    rw [h5]
    apply idx_run (P := fun i => i.1 = k ∧ i.2.length = nonceLen) _ _ _ hr
    · rw [openAt_idx hopen']
      exact ⟨rfl, initNonce_length hrand⟩
    · intro i hi
      rcases List.mem_append.1 hi with hi | hi
      · obtain ⟨e', he, hx⟩ := mem_beforePanic hi
        exact hfit e' he _ hx
      · exact hfit _ (hfs _ hi) _ rfl
  exact ⟨h1, S, hsh, fun rand' half => openEnc_good hk (encGood_left h2 hidx.1 hidx.2 half) rand'⟩

/-! ### Cases that meet the hypotheses -/

/-- The hypotheses of `C67_encrypted_with_past` are met: after `demoEnc`, one put has returned and waits, and the background thread
makes its four steps. -/
example : ∃ rss d s0 s1 s2 rs1 rs2, EncLife toy 80 EncDir.fresh demoEnc rss d ∧ openEnc toy 80 testKey nonce1 d = some s0 ∧
    run (encrypted toy) s0 [.put "z" 0 [0, 0, 0, 9], .api (testKeyBytes, nonce1), .api (testKeyBytes, nonce1)] = some (s1, rs1) ∧
    s1.phase = .idle ∧ s1.waiting = 1 ∧ run (encrypted toy) s1 [.io idOrder, .io idOrder, .io idOrder, .io idOrder] = some (s2, rs2) := by
  have h : ((encLifeRun toy 80 EncDir.fresh demoEnc).bind fun p => (openEnc toy 80 testKey nonce1 p.2).bind fun s0 =>
      (run (encrypted toy) s0 [.put "z" 0 [0, 0, 0, 9], .api (testKeyBytes, nonce1), .api (testKeyBytes, nonce1)]).bind fun q =>
        (run (encrypted toy) q.1 [.io idOrder, .io idOrder, .io idOrder, .io idOrder]).map fun _ =>
          decide (q.1.phase = .idle ∧ q.1.waiting = 1)) = some true := by decide +kernel
  simp only [Option.bind_eq_some_iff, Option.map_eq_some_iff] at h
  obtain ⟨p, hp, s0, hs0, q, hq, q2, hq2, hd⟩ := h
  exact ⟨p.1, p.2, s0, q.1, q2.1, q.2, q2.2, encLife_of_run _ _ _ _ hp, hs0, hq, (of_decide_eq_true hd).1, (of_decide_eq_true hd).2, hq2⟩

/-- A session after `demoEnc` in which a `to_bytes` panics between two calls, then the store is closed. -/
def encPanicEvs : List (UEv (Bytes × Bytes)) :=
  [.ev (.put "a" 0 [0, 0, 0, 1]), .ev (.api (testKeyBytes, nonce1)), .ev (.api (testKeyBytes, nonce1)),
   .putUser "c" 200 none, .ev (.delete "a"), .ev .drop, .ev (.io idOrder), .ev (.io idOrder), .ev (.io idOrder), .ev (.io idOrder), .ev (.io idOrder)]

/-- The hypotheses of `C64_encrypted_partial` are met. -/
example : ∃ rss d s0 s rs, EncLife toy 80 EncDir.fresh demoEnc rss d ∧ openEnc toy 80 testKey nonce1 d = some s0 ∧
    runU (encrypted toy) s0 encPanicEvs = some (s, rs) ∧ s.closedOk ∧ rs = [.ok (), .panic, .err (.lockError "")] := by
  have h : ((encLifeRun toy 80 EncDir.fresh demoEnc).bind fun p => (openEnc toy 80 testKey nonce1 p.2).bind fun s0 =>
      (runU (encrypted toy) s0 encPanicEvs).map fun q =>
        decide (q.1.phase = .closed ∧ q.1.lp.io = .exited ∧ q.2 = [.ok (), .panic, .err (.lockError "")])) = some true := by decide +kernel
  simp only [Option.bind_eq_some_iff, Option.map_eq_some_iff] at h
  obtain ⟨p, hp, s0, hs0, q, hq, hd⟩ := h
  obtain ⟨h1, h2, h3⟩ := of_decide_eq_true hd
  exact ⟨p.1, p.2, s0, q.1, q.2, encLife_of_run _ _ _ _ hp, hs0, hq, ⟨h1, h2⟩, h3⟩

/-- A session of two overwrites of one key, then killed. -/
def encOverwrites : EncSession :=
  { key := testKey, rand := nonce1, clean := false,
    evs := encPut (testKeyBytes, nonce1) "a" 1 (zeros 20) ++ encPut (testKeyBytes, nonce1) "a" 1 (zeros 21) }

/-- The hypotheses of `C55_encrypted_partial` are met, with `n = 1` and `L = 41`. -/
example : (∃ rss d, EncLife toy 64 EncDir.fresh [encOverwrites] rss d ∧ d.file.length = 64) ∧
    ∀ pre x post, [encOverwrites] = pre ++ x :: post → ∀ S, Survives Store.empty (encCalls pre) S → ∀ m,
      Store.Within (fun k e => encRecordSize k e.token e.bytes) 1 41 (S.run ((calls x.evs).take m)) := by
  constructor
  · have h : ((encLifeRun toy 64 EncDir.fresh [encOverwrites]).map fun p => decide (p.2.file.length = 64)) = some true := by decide +kernel
    simp only [Option.map_eq_some_iff] at h
    obtain ⟨p, hp, hd⟩ := h
    exact ⟨p.1, p.2, encLife_of_run _ _ _ _ hp, of_decide_eq_true hd⟩
  · intro pre x post hx S hS m
    have hpre : pre = [] ∧ x = encOverwrites := by
      cases pre with
      | nil => simp only [List.nil_append, List.cons.injEq] at hx; exact ⟨rfl, hx.1.symm⟩
      | cons y ys => simp at hx
    obtain ⟨rfl, rfl⟩ := hpre
    cases hS
    have hcalls : calls encOverwrites.evs = [.put "a" ⟨1, zeros 20⟩, .put "a" ⟨1, zeros 21⟩] := rfl
    rw [hcalls]
    have hsz : ∀ n, n ≤ 21 → encRecordSize "a" 1 (zeros n) ≤ 41 := by
      have : ∀ n : Fin 22, encRecordSize "a" 1 (zeros n) ≤ 41 := by decide +kernel
      exact fun n hn => this ⟨n, by omega⟩
    match m with
    | 0 => exact ⟨[], by simp, by simp [Store.run, Store.empty], by simp, by simp⟩
    | 1 => exact within_one (hsz _ (by omega))
    | m + 2 =>
      simp only [List.take_succ_cons, List.take_nil, Store.run, List.foldl_cons, List.foldl_nil, put_put]
      exact within_one (hsz _ (by omega))

end Mmkv
