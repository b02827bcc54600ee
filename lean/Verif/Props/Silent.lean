import Verif.Lemmas.Silent
import Verif.Props.Encrypt
import Verif.Props.Size
/-!
# If nothing was reported, everything was saved: C68

The background thread may die of a record that does not fit (C11, C35).  A caller learns of that from a later call or
from a panic when the last handle is closed.  C68 is the other direction: when every call returned `Ok` and the close
returned, then nothing is missing, whatever the sizes of the records.
-/

namespace Mmkv
open Spec Inst
variable {ι : Type}

/-- A data file (`[]`: missing or empty) that holds at most `P` whole records, at most `A` bytes of them (also when written
anew), and stands for the map `S`. -/
inductive Kept (E : Env ι) (c : Codec) (A P : Nat) : Bytes → Store → Prop
  | empty : Kept E c A P [] Store.empty
  | held {file content items} (hh : Holds file content) (hf : Framed c 0 content items)
      (hb : ∀ b, some b ∈ items → E.okB b) (hs : content.length ≤ A) (ht : recSum E.recLen items ≤ A)
      (hk : items.length ≤ P) : Kept E c A P file (Store.empty.run (mutations items))

/-- A file that holds whole records opens, under any page size. -/
theorem openAt_held {codecs : ι → Codec} {i : ι} {page : Nat} {file content : Bytes} {items : List (Option Buffer)}
    (hh : Holds file content) (hf : Framed (codecs i) 0 content items) :
    ∃ s, openAt codecs i page file = some s ∧ Valid (codecs i) s.lp.cb.ws content items ∧ s.lp.cb.ws.page = page ∧
      s.lp.cb.ws.quota = none ∧ view s.kv = Store.empty.run (mutations items) := by
  have hlen := hh.len
  have hne : file.length ≠ 0 := by omega
  have hv : Valid (codecs i) { file := file, mmLen := file.length, page := page, position := items.length, needTrim := false }
      content items := ⟨rfl, rfl, hh, hf, rfl⟩
  have hread : WState.readItems { file := file, mmLen := file.length, page := page, position := 0, needTrim := false }
      (codecs i) = some items := by have := readItems_eq hv; exact this
  have hopen : openAt codecs i page file = some { idx := i, kv := (intoMap items).1, lp := Looper.new { ws :=
      { file := file, mmLen := file.length, page := page, position := items.length, needTrim := false } } } := by
    unfold openAt openStore
    simp only [configNew, hne, if_false, hread]
    rfl
  exact ⟨_, hopen, hv, rfl, rfl, view_intoMap items⟩

theorem openAt_empty {codecs : ι → Codec} {i : ι} {page : Nat} (h8 : 8 ≤ page) :
    ∃ s, openAt codecs i page [] = some s ∧ Valid (codecs i) s.lp.cb.ws [] [] ∧ s.lp.cb.ws.page = page ∧
      s.lp.cb.ws.quota = none ∧ view s.kv = Store.empty := by
  unfold openAt
  rw [openStore_nil _ _ h8]
  exact ⟨_, rfl, ⟨rfl, by simp [Looper.new, zeros], ⟨by simp, zeros (page - 8), zeros_eq page h8⟩, .nil _, rfl⟩, rfl, rfl, view_nil⟩

/-- Such a file opens, under any page size, and shows the map. -/
theorem Kept.opens {E : Env ι} {i : ι} {A P : Nat} {file : Bytes} {S : Store} (h : Kept E (E.codecs i) A P file S)
    {page : Nat} (h8 : 8 ≤ page) : ∃ s, openAt E.codecs i page file = some s ∧ s.Shows S := by
  cases h with
  | empty =>
    obtain ⟨s, h1, _, _, _, h5⟩ := openAt_empty (codecs := E.codecs) (i := i) h8
    exact ⟨s, h1, (shows_open h1).2 h5⟩
  | held hh hf hb hs ht hk =>
    obtain ⟨s, h1, _, _, _, h5⟩ := openAt_held (codecs := E.codecs) (i := i) (page := page) hh hf
    exact ⟨s, h1, (shows_open h1).2 h5⟩

theorem Kept.gen {E : Env ι} {i : ι} {A P : Nat} {file : Bytes} {S : Store} {s : Inst ι} (h : Kept E (E.codecs i) A P file S)
    (ho : openAt E.codecs i E.page file = some s) : Gen E S A P [] 0 s := by
  cases h with
  | empty =>
    obtain ⟨s1, h1, h2, h3, h4, h5⟩ := openAt_empty (codecs := E.codecs) (i := i) E.page8
    rw [ho] at h1; injection h1 with h1; subst h1
    have := gen_open (A := A) (P := P) ho ⟨h2, h4, by simp, by simp, by simp [recSum, sumLen], by simp⟩ h3 (by rw [h5]; rfl)
    rwa [h5] at this
  | held hh hf hb hs ht hk =>
    obtain ⟨s1, h1, h2, h3, h4, h5⟩ := openAt_held (codecs := E.codecs) (i := i) (page := E.page) hh hf
    rw [ho] at h1; injection h1 with h1; subst h1
    have := gen_open (A := A) (P := P) ho ⟨h2, h4, hb, hs, ht, hk⟩ h3 h5
    rwa [h5] at this

/-- One session that reported nothing and was closed. -/
theorem gen_closed {E : Env ι} {S0 : Store} {A P : Nat} {cs : List Mutation} {w : Nat} {s : Inst ι}
    (h : Gen E S0 A P cs w s) (hA : A + w + 8 < 2 ^ 64) (hP : E.posOk (P + cs.length)) (hc : s.closedOk) :
    s.lp.cb.removed = false ∧ Kept E (E.codecs s.idx) (A + w) (P + cs.length) s.disk (S0.run cs) := by
  obtain ⟨hph, hex⟩ := hc
  obtain ⟨_, content, items, hs, _, hfin⟩ := gen_exited h hA hP hex
  obtain ⟨hrm, hrun⟩ := hfin (h.book.jobsW (by simp [hph, Phase.clearing])) (by simp [hph, Phase.inflight])
  refine ⟨hrm, ?_⟩
  rw [show s.disk = s.lp.cb.ws.file by simp [disk, hrm], ← hrun]
  exact .held hs.holds hs.framed hs.bufs hs.size hs.total hs.count

/-- Bytes some sessions have written. -/
def sessionsSize (E : Env ι) (xs : List (Session ι)) : Nat := (xs.map fun x => evsSize E x.evs).sum

/-- Several sessions, all closed, that reported nothing. -/
theorem clean_life {E : Env ι} {A P : Nat} {d d' : Dir ι} {xs : List (Session ι)} {rss : List (List (Out Unit))} {S0 : Store}
    (hl : Life E.codecs E.page d xs rss d')
    (hd : ∀ i, (∀ j, d.idx = some j → i = j) → Kept E (E.codecs i) A P d.file S0)
    (hclean : ∀ x ∈ xs, x.clean = true) (hok : ∀ rs ∈ rss, ∀ r ∈ rs, r = .ok ()) (hwf : ∀ x ∈ xs, ∀ e ∈ x.evs, e.Wf E)
    (hA : A + sessionsSize E xs + 8 < 2 ^ 64) (hP : E.posOk (P + callCount xs)) :
    ∀ i, (∀ j, d'.idx = some j → i = j) → Kept E (E.codecs i) (A + sessionsSize E xs) (P + callCount xs) d'.file
      (S0.run (xs.map fun x => calls x.evs).flatten) := by
  induction hl generalizing A P S0 with
  | nil d => simpa [sessionsSize, callCount, Store.run] using hd
  | @cons d d' x xs s s' rs rss hi ho hr hc rest ih =>
    have hsz : sessionsSize E (x :: xs) = evsSize E x.evs + sessionsSize E xs := by simp [sessionsSize]
    have hcc : callCount (x :: xs) = (calls x.evs).length + callCount xs := by simp [callCount]
    rw [hsz] at hA ⊢
    rw [hcc] at hP ⊢
    have hmono := (E.lawful s.idx).posOk_mono
    have hg := (hd x.i hi).gen ho
    have hg' := gen_run x.evs hg (hwf x List.mem_cons_self) (by omega)
      (by simp only [List.length_nil, Nat.add_zero]; exact hmono _ _ hP (by omega)) hr
      (hok rs List.mem_cons_self)
    rw [List.nil_append, Nat.zero_add] at hg'
    obtain ⟨hrm, hk⟩ := gen_closed hg' (by omega) (hmono _ _ hP (by omega)) (hc (hclean x List.mem_cons_self))
    have := ih (A := A + evsSize E x.evs) (P := P + (calls x.evs).length) (S0 := S0.run (calls x.evs)) (by
        intro i hi'
        have : i = s'.idx := hi' _ (by simp [dir, hrm])
        subst this
        exact hk) (fun y hy => hclean y (List.mem_cons_of_mem _ hy)) (fun rs' hrs => hok rs' (List.mem_cons_of_mem _ hrs))
      (fun y hy => hwf y (List.mem_cons_of_mem _ hy)) (by omega)
      (by rw [Nat.add_assoc]; exact hP)
    rw [← Nat.add_assoc, ← Nat.add_assoc, List.map_cons, List.flatten_cons, run_append]
    exact this

/-! ### The plain store -/

/-- Bytes of the record a call makes, in the plain file. -/
def Ev.recordBytes : Ev ι → Nat
  | .put k t bs => recordSize k t bs
  | .delete k => recordSize k deletedToken [] 
  | _ => 0

/-- Bytes of all the records some sessions make, in the plain file. -/
def recordBytesOf (xs : List (Session ι)) : Nat := (xs.map fun x => (x.evs.map Ev.recordBytes).sum).sum

theorem Ev.Fits.wf {N : Nat} (hN : N < 2 ^ 32) {page : Nat} {h8 : 8 ≤ page} {dirty : Prop} {e : Ev Unit} (h : e.Fits N) :
    e.Wf (plainEnv page h8 dirty) := by
  cases e with
  | put k t bs => simp only [Ev.Fits, recordSize] at h; simp only [Ev.Wf, plainEnv, crcOk, Buffer.ofRaw]; omega
  | delete k => simp only [Ev.Fits, recordSize] at h; simp only [Ev.Wf, plainEnv, crcOk, Buffer.deleted]; omega
  | io o => exact h
  | clear => trivial
  | api i => trivial
  | drop => trivial

theorem plain_size {page : Nat} {h8 : 8 ≤ page} {dirty : Prop} (e : Ev Unit) :
    e.size (plainEnv page h8 dirty) = e.recordBytes := by
  cases e <;> simp [Ev.size, Ev.recordBytes, plainEnv, crcLen, recordSize, Buffer.ofRaw, Buffer.deleted] <;> omega

theorem plain_sessionsSize {page : Nat} {h8 : 8 ≤ page} {dirty : Prop} (xs : List (Session Unit)) :
    sessionsSize (plainEnv page h8 dirty) xs = recordBytesOf xs := by
  simp only [sessionsSize, recordBytesOf, evsSize]
  congr 1
  apply List.map_congr_left
  intro x _
  congr 1
  exact List.map_congr_left fun e _ => plain_size e

/-- **C68.** Any number of sessions on a directory, with any calls (each record below 4 GiB, whatever the page size) and any
schedule; every call returned `Ok` and every session ended with a close that returned.  Then the directory opens, with
this or any other page size, and shows exactly the effect of all the calls, in order. -/
theorem C68_clean_close_saves {page : Nat} (h8 : 8 ≤ page) {xs : List (Session Unit)} {rss : List (List (Out Unit))}
    {d : Dir Unit} (hl : Life plain page Dir.fresh xs rss d) (hok : ∀ rs ∈ rss, ∀ r ∈ rs, r = .ok ())
    (hclean : ∀ x ∈ xs, x.clean = true) (hfit : ∀ x ∈ xs, ∀ e ∈ x.evs, e.Fits (2 ^ 32 - 1))
    (hroom : recordBytesOf xs + 8 < 2 ^ 64) {page' : Nat} (h8' : 8 ≤ page') :
    ∃ s, openAt plain () page' d.file = some s ∧ s.Shows (Store.empty.run (xs.map fun x => calls x.evs).flatten) := by
  have := clean_life (E := plainEnv page h8 False) (A := 0) (P := 0) hl (fun _ _ => .empty) hclean hok
    (fun x hx e he => (hfit x hx e he).wf (by omega)) (by rw [plain_sessionsSize]; omega) trivial
  exact (this () (fun _ _ => rfl)).opens h8'

/-- **C68** in a directory with any file in it that opens: a session that reported nothing adds exactly its calls.  `hold`
and `hroom`: the records already in the file, if written anew, and those of the session fit a file (below 4 GiB each,
below 2^64 together). -/
theorem C68_any_file {page : Nat} (h8 : 8 ≤ page) {file : Bytes} {s0 s : Inst Unit} {S0 : Store} {es : List (Ev Unit)}
    {rs : List (Out Unit)} (hopen : openAt plain () page file = some s0) (h0 : s0.Shows S0)
    (hrun : run plain s0 es = some (s, rs)) (hok : ∀ r ∈ rs, r = .ok ()) (hc : s.closedOk)
    (hfit : ∀ e ∈ es, e.Fits (2 ^ 32 - 1)) {N : Nat}
    (hold : ∀ items, fileRecords crcCodec s0.lp.cb.ws.file = some items →
      (∀ b, some b ∈ items → recordSize b.key b.type b.value < 2 ^ 32) ∧
      ((items.filterMap id).map fun b => recordSize b.key b.type b.value).sum ≤ N)
    (hhead : header s0.lp.cb.ws.file ≤ N)
    (hroom : N + (es.map Ev.recordBytes).sum + 8 < 2 ^ 64) {page' : Nat} (h8' : 8 ≤ page') :
    ∃ s', openAt plain () page' s.disk = some s' ∧ s'.Shows (S0.run (calls es)) := by
  have hv0 := (shows_open hopen).1 h0
  have hg : ∃ P, Gen (plainEnv page h8 False) S0 N P [] 0 s0 := by
    have ho := hopen
    unfold openAt at ho
    split at ho
    · cases ho
    rename_i o hop
    injection ho with ho
    subst ho
    obtain ⟨items, har, hview⟩ := atRest_open hop
    obtain ⟨content, hv, hh⟩ := har.valid
    obtain ⟨hb, ht⟩ := hold items har.reads
    have hpage : o.ws.page = page := by
      unfold openStore at hop
      simp only [] at hop
      split at hop
      · cases hop
      · split at hop
        · cases hop
        · injection hop with hop; subst hop; rfl
    refine ⟨items.length, ?_⟩
    rw [← hv0]
    refine gen_open (E := plainEnv page h8 False) (content := content) (items := items) hopen
      ⟨hv, har.disk, ?_, ?_, ?_, Nat.le_refl _⟩ hpage hview
    · intro b hb'
      have := hb b hb'
      cases b
      simp only [recordSize] at this
      simp only [plainEnv, crcOk]
      omega
    · rw [← hh]; exact hhead
    · refine Nat.le_trans (Nat.le_of_eq ?_) ht
      simp only [recSum, sumLen, plainEnv]
      congr 1
      apply List.map_congr_left
      intro b _
      cases b
      simp only [crcLen, recordSize]
      omega
  obtain ⟨P, hg⟩ := hg
  have hsz : evsSize (plainEnv page h8 False) es = (es.map Ev.recordBytes).sum := by
    simp only [evsSize]
    congr 1
    exact List.map_congr_left fun e _ => plain_size e
  have hg' := gen_run es hg (fun e he => (hfit e he).wf (by omega)) (by rw [hsz]; omega) trivial hrun hok
  rw [List.nil_append, Nat.zero_add, hsz] at hg'
  exact (gen_closed hg' (by omega) trivial hc).2.opens h8'

/-! ### The encrypted store -/

/-- Bytes of the record a call makes, in the encrypted file. -/
def Ev.encRecordBytes : Ev ι → Nat
  | .put k t bs => encRecordSize k t bs
  | .delete k => encRecordSize k deletedToken []
  | _ => 0

/-- Bytes of all the records some sessions make, in the encrypted file. -/
def encRecordBytesOf (xs : List EncSession) : Nat := (xs.map fun x => (x.evs.map Ev.encRecordBytes).sum).sum

theorem Ev.EncFits.wf {C : Cipher} {N : Nat} (hN : N < 2 ^ 32) {page : Nat} {h8 : 8 ≤ page} {dirty : Prop} {k : Bytes}
    {e : Ev (Bytes × Bytes)} (h : e.EncFits k N) : e.Wf (encEnv C page h8 dirty) := by
  cases e with
  | put k t bs => simp only [Ev.EncFits, encRecordSize] at h; simp only [Ev.Wf, encEnv, aeadOk, Buffer.ofRaw]; omega
  | delete k => simp only [Ev.EncFits, encRecordSize] at h; simp only [Ev.Wf, encEnv, aeadOk, Buffer.deleted]; omega
  | io o => exact h
  | clear => trivial
  | api i => trivial
  | drop => trivial

theorem enc_size {C : Cipher} {page : Nat} {h8 : 8 ≤ page} {dirty : Prop} (e : Ev (Bytes × Bytes)) :
    e.size (encEnv C page h8 dirty) = e.encRecordBytes := by
  cases e <;> simp [Ev.size, Ev.encRecordBytes, encEnv, aeadLen, encRecordSize, Buffer.ofRaw, Buffer.deleted] <;> omega

/-- **C68** for the encrypted store (one key throughout; `hctr`: fewer than 2^32 - 1 mutating calls, see C55). -/
theorem C68_encrypted (C : Cipher) {page : Nat} (h8 : 8 ≤ page) {key : String} {k : Bytes} (hk : decodeKey key = some k)
    {xs : List EncSession} {rss : List (List (Out Unit))} {d : EncDir} (hl : EncLife C page EncDir.fresh xs rss d)
    (hs : SameKey key k (2 ^ 32 - 1) xs) (hok : ∀ rs ∈ rss, ∀ r ∈ rs, r = .ok ()) (hclean : ∀ x ∈ xs, x.clean = true)
    (hroom : encRecordBytesOf xs + 8 < 2 ^ 64) (hctr : encCallCount xs < 2 ^ 32 - 1)
    {page' : Nat} (h8' : 8 ≤ page') (rand : Bytes) :
    ∃ s, openEnc C page' key rand d = some s ∧ s.Shows (Store.empty.run (xs.map fun x => calls x.evs).flatten) := by
  obtain ⟨ys, g', hl', hg', hc, hf, hev⟩ := life_of_encLife hk hl hs (g := Dir.fresh) ⟨rfl, by simp [Dir.fresh]⟩
  have hcc := callCount_eq hc
  have hsz : sessionsSize (encEnv C page h8 False) ys = encRecordBytesOf xs := by
    have h1 : sessionsSize (encEnv C page h8 False) ys = ((ys.map (·.evs)).map fun es => (es.map Ev.encRecordBytes).sum).sum := by
      simp only [sessionsSize, List.map_map]
      congr 1
      apply List.map_congr_left
      intro y _
      simp only [evsSize, Function.comp]
      congr 1
      exact List.map_congr_left fun e _ => enc_size e
    rw [h1, hev, List.map_map]
    rfl
  have hcl : ∀ y ∈ ys, y.clean = true := by
    intro y hy
    have : (calls y.evs, y.clean) ∈ sessionCalls ys := List.mem_map_of_mem hy
    rw [hc] at this
    obtain ⟨x, hx, hxy⟩ := List.mem_map.1 this
    have := hclean x hx
    injection hxy with _ h2
    rw [← h2]; exact this
  have := clean_life (E := encEnv C page h8 False) (A := 0) (P := 0) hl' (fun _ _ => .empty) hcl hok
    (fun y hy e he => (hf y hy e he).wf (by omega)) (by rw [hsz]; omega)
    (by rw [hcc]; simpa [encEnv, aeadPos, counterMax] using hctr)
  rw [openEnc_eq hk, ← hg'.1]
  have hi : ∀ j, g'.idx = some j → (k, initNonce d.nonceFile rand) = j := by
    intro j hj
    obtain ⟨j1, j2, j3⟩ := hg'.2 j hj
    rw [j3]
    simp only [initNonce, j2, if_true]
    rw [← j1]
  obtain ⟨s, h1, h2⟩ := (this _ hi).opens h8'
  refine ⟨s, h1, ?_⟩
  have hfl : (ys.map fun x => calls x.evs) = xs.map fun x => calls x.evs := by
    have := congrArg (List.map calls) hev
    simpa [List.map_map, Function.comp_def] using this
  rwa [hfl] at h2

/-! ### Non-vacuity -/

/-- A whole close: drop the last handle, let the thread run all it has, `n` steps in all. -/
def closeAfter (n : Nat) : List (Ev Unit) := .drop :: List.replicate n (.io idOrder)

/-- Two sessions with a page of 64 bytes: the first puts a record of 66 bytes; the second deletes a key, clears the store
and puts such a record again. -/
def bigSessions : List (Session Unit) :=
  [⟨(), [.put "a" 2 [1], .api (), .api (), .put "big" 7 (List.replicate 52 5), .api (), .api ()] ++ closeAfter 9, true⟩,
   ⟨(), [.delete "a", .api (), .api (), .clear, .api (), .api (), .api ()] ++ List.replicate 9 (.io idOrder) ++
     [.api (), .api (), .put "big" 7 (List.replicate 52 6), .api (), .api ()] ++ closeAfter 5, true⟩]

set_option maxRecDepth 4000 in
/-- They meet the hypotheses of C68: every call returns `Ok`, every close returns, although records exceed a page. -/
example : (∃ rss d, Life plain 64 Dir.fresh bigSessions rss d ∧ (∀ rs ∈ rss, ∀ r ∈ rs, r = .ok ())) ∧
    (∀ x ∈ bigSessions, x.clean = true) ∧ (∀ x ∈ bigSessions, ∀ e ∈ x.evs, e.Fits (2 ^ 32 - 1)) ∧
    recordBytesOf bigSessions + 8 < 2 ^ 64 ∧ 64 < recordSize "big" 7 (List.replicate 52 5) := by
  have hsz : ((bigSessions.flatMap (·.evs)).all fun e => decide (e.recordBytes ≤ 100)) = true := by decide +kernel
  have htot : recordBytesOf bigSessions ≤ 300 := by decide +kernel
  have hbig : 64 < recordSize "big" 7 (List.replicate 52 5) := by decide +kernel
  refine ⟨?_, by simp [bigSessions], ?_, by omega, hbig⟩
  · have h : (match lifeRun 64 [] bigSessions with
        | some (rss, _) => rss.all fun rs => rs.all fun r => decide (r = .ok ())
        | none => false) = true := by decide +kernel
    split at h
    · rename_i rss f hr
      obtain ⟨d, hl, _⟩ := life_of_lifeRun bigSessions Dir.fresh rss f hr
      refine ⟨rss, d, hl, ?_⟩
      intro rs hrs r hr'
      simpa using List.all_eq_true.1 (List.all_eq_true.1 h rs hrs) r hr'
    · cases h
  · intro x hx e he
    have h1 := List.all_eq_true.1 hsz e (List.mem_flatMap.2 ⟨x, hx, he⟩)
    simp only [decide_eq_true_eq] at h1
    cases e with
    | put k t bs => simp only [Ev.recordBytes] at h1; simp only [Ev.Fits]; omega
    | delete k => simp only [Ev.recordBytes] at h1; simp only [Ev.Fits]; omega
    | io o =>
      have : o = idOrder := by
        simp only [bigSessions, closeAfter, List.mem_cons, List.not_mem_nil, or_false] at hx
        rcases hx with rfl | rfl <;> simpa using he
      subst this
      exact fun l => .refl l
    | clear => trivial
    | api i => trivial
    | drop => trivial

/-- The hypotheses separate: with a value of 300 bytes both calls still return `Ok`, but the thread dies and the close does
not return (it panics); the file that is left cannot even be opened. -/
example : passes (fresh64 ([.put "a" 2 [1], .api (), .api (), .put "big" 7 (List.replicate 300 5), .api (), .api (), .drop] ++
      List.replicate 5 (.io idOrder))) (fun s rs => decide (rs = [.ok (), .ok ()]) && decide (s.phase = .closed) &&
      decide (s.lp.io = .dead) && (openAt plain () 64 s.disk).isNone) = true := by
  decide +kernel

end Mmkv
