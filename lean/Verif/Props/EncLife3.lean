import Verif.Props.EncLife2
import Verif.Props.Format
import Verif.Props.Quota
import Verif.Props.DurLin
import Verif.Props.Copy
/-!
# The life of any directory, continued: C15, C58, C70 and C94 with encryption and with a past
-/

namespace Mmkv
open Spec Inst
open Spec.Format
variable {ι : Type}

/-! ### C15 -/

/-- **C15** with encryption: at every moment of any session of any life of an encrypted directory (`xs` may end with a session
that is killed there), the data file is missing, or its header is the total size of the sealed records behind it, which are whole,
inside the file, and each opens under the key, the nonce in the nonce file and its own number. -/
theorem C15_encrypted (C : Cipher) {page : Nat} (h8 : 8 ≤ page) (h32 : page < 2 ^ 32) {key : String} {k : Bytes}
    (hk : decodeKey key = some k) {xs : List EncSession} {rss : List (List (Out Unit))} {d : EncDir}
    (hl : EncLife C page EncDir.fresh xs rss d) (hs : SameKey key k page xs)
    (hroom : page * encCallCount xs + 8 < 2 ^ 64) (hctr : encCallCount xs < 2 ^ 32 - 1) :
    d.file = [] ∨ ∃ nonce kvs, d.nonceFile = some nonce ∧ nonce.length = 11 ∧ SealedFile (openSealed C k nonce) d.file kvs := by
  obtain ⟨S, _, ⟨h, _⟩ | ⟨n, kvs, h1, h2, h3, _⟩⟩ := C80_encrypted C h8 h32 hk hl hs hroom hctr
  · exact .inl h
  · exact .inr ⟨n, kvs, h1, h2, h3⟩

/-! ### C58 -/

/-- Two stretches of a session that only adds keys, on a disk of any size. -/
theorem shadow_two {E : Env ι} {i : ι} {K : Nat} {file : Bytes} {S0 : Store} {q : Option Nat} {s0 s1 s2 : Inst ι}
    {es1 es2 : List (Ev ι)} {rs1 rs2 : List (Out Unit)} (hg : GoodFile E (E.codecs i) K file S0)
    (hopen : openAt E.codecs i E.page file 8 q = some s0)
    (hrun1 : run E.codecs s0 es1 = some (s1, rs1)) (hrun2 : run E.codecs s1 es2 = some (s2, rs2))
    (hok : ∀ e ∈ es1 ++ es2, e.Ok E) (hadd : ∀ e ∈ es1 ++ es2, e.Adds)
    (hnew : (putKeys (es1 ++ es2)).Nodup) (habs : ∀ k ∈ putKeys (es1 ++ es2), S0 k = none)
    (hroom : E.Room (K + (calls (es1 ++ es2)).length)) :
    ∃ m1 m2, m1 ≤ m2 ∧ m2 ≤ (calls (es1 ++ es2)).length ∧
      GoodFile E (E.codecs s1.idx) (K + (calls es1).length) s1.disk (S0.run ((calls (es1 ++ es2)).take m1)) ∧
      GoodFile E (E.codecs s2.idx) (K + (calls (es1 ++ es2)).length) s2.disk (S0.run ((calls (es1 ++ es2)).take m2)) ∧
      s1.lp.cb.removed = false ∧ s2.lp.cb.removed = false ∧
      ∀ k x, S0.run ((calls (es1 ++ es2)).take m1) k = some x → S0.run ((calls (es1 ++ es2)).take m2) k = some x := by
  have hne : Nonempty ι := ⟨i⟩
  have hsh0 := shadow_open hg hopen
  have hk1 : putKeys (es1 ++ es2) = putKeys es1 ++ putKeys es2 := by simp [putKeys]
  have hc1 : calls (es1 ++ es2) = calls es1 ++ calls es2 := calls_append _ _
  rw [hk1] at hnew habs
  rw [hc1, List.length_append] at hroom
  have hnd := List.nodup_append.1 hnew
  have hadd1 : ∀ e ∈ es1, e.Adds := fun e he => hadd e (List.mem_append_left _ he)
  have hadd2 : ∀ e ∈ es2, e.Adds := fun e he => hadd e (List.mem_append_right _ he)
  obtain ⟨a1, c1, hsh1, _⟩ := shadow_run es1 hsh0 (fun e he => hok e (List.mem_append_left _ he))
    hadd1 hnd.1 (fun k hk => habs k (List.mem_append_left _ hk)) (hroom.mono (by simp)) hrun1
  rw [List.nil_append] at hsh1
  have hfr2 : ∀ k ∈ putKeys es2, S0.run (calls es1) k = none := by
    intro k hk
    rw [run_puts_other, habs k (List.mem_append_right _ hk)]
    intro m hm
    obtain ⟨k', x, rfl⟩ := calls_adds hadd1 m hm
    refine ⟨k', x, rfl, ?_⟩
    rintro rfl
    refine hnd.2.2 k' ?_ k' hk rfl
    rw [← calls_keys hadd1]
    exact List.mem_map.2 ⟨_, hm, rfl⟩
  obtain ⟨a2, c2, hsh2, hle⟩ := shadow_run es2 hsh1 (fun e he => hok e (List.mem_append_right _ he))
    hadd2 hnd.2.1 hfr2 (by rw [Nat.add_assoc]; exact hroom) hrun2
  obtain ⟨hl1, hg1⟩ := hsh1.holds
  obtain ⟨hl2, hg2⟩ := hsh2.holds
  have hp1 := hsh1.pre.length_le
  have hp2 := hsh2.pre.length_le
  have hrem : ∀ {cs csA : List Mutation} {s a : Inst ι}, Shadow E S0 K cs s a csA → s.lp.cb.removed = false := by
    intro cs csA s a h
    cases hr : s.lp.cb.removed with
    | false => rfl
    | true =>
      exfalso
      have hf := h.file
      have hra : a.lp.cb.removed = false := by
        obtain ⟨cb0, _, hinv⟩ := h.dinv.book.inv
        cases hra : a.lp.cb.removed with
        | false => rfl
        | true =>
          have hpre := hinv.ran_prefix
          rw [h.dinv.book.late, List.append_nil] at hpre
          have := h.dinv.book.jobsW h.aNotClr .remove (by unfold jobs; exact List.mem_append_left _ (hpre.subset (h.dinv.book.removed.1 hra)))
          simp [Job.isWrite] at this
      refine rest_has_file h.dinv hra ?_
      rw [← hf]
      simp [disk, hr]
  rw [hc1]
  refine ⟨a1.lp.ran.length, a2.lp.ran.length, hle, by omega, ?_, ?_, hrem hsh1, hrem hsh2, ?_⟩
  · rw [List.take_append_of_le_length (by omega)]
    exact hg1
  · exact hg2
  -- the later calls are about other keys
  generalize hC : calls es1 ++ calls es2 = C
  generalize a1.lp.ran.length = n1 at hle
  generalize a2.lp.ran.length = n2 at hle
  have hsplit : C.take n2 = C.take n1 ++ (C.take n2).drop n1 := by
    conv => lhs; rw [← List.take_append_drop n1 (C.take n2)]
    rw [List.take_take, Nat.min_eq_left hle]
  have hCadd : ∀ m ∈ C, ∃ k x, m = .put k x := by
    intro m hm
    rw [← hC, ← hc1] at hm
    exact calls_adds hadd m hm
  have hCkeys : C.map (fun | .put k _ => k | _ => "") = putKeys es1 ++ putKeys es2 := by
    rw [← hC, ← hc1, ← hk1]; exact calls_keys hadd
  have hCnd : ((C.take n2).map (fun | .put k _ => k | _ => "")).Nodup := by
    refine List.Sublist.nodup ((List.take_sublist n2 C).map _) ?_
    rw [hCkeys]; exact hnew
  rw [hsplit, List.map_append] at hCnd
  rw [hsplit, run_append]
  refine run_puts_keep _ ?_
  intro m hm
  have hmC : m ∈ C := List.mem_of_mem_take (List.mem_of_mem_drop hm)
  obtain ⟨k, x, rfl⟩ := hCadd m hmC
  refine ⟨k, x, rfl, ?_⟩
  rw [run_puts_other, habs k]
  · rw [← hCkeys]; exact List.mem_map.2 ⟨_, hmC, rfl⟩
  · intro m' hm'
    obtain ⟨k', x', rfl⟩ := hCadd m' (List.mem_of_mem_take hm')
    refine ⟨k', x', rfl, ?_⟩
    rintro rfl
    exact (List.nodup_append.1 hCnd).2.2 _ (List.mem_map.2 ⟨_, hm', rfl⟩) _ (List.mem_map.2 ⟨_, hm, rfl⟩) rfl

/-- **C58**, what is true, with encryption and with any past: a session that only puts keys that were not there before, on a disk that
grants the data file `q` bytes, never loses anything already saved.  Whenever the process ends, the directory opens with the key and
shows the first so many of the calls; whatever it would have shown at an earlier moment is still there later. -/
theorem C58_encrypted_partial (C : Cipher) {page q : Nat} (h8 : 8 ≤ page) (h32 : page < 2 ^ 32) {key : String} {k : Bytes}
    (hk : decodeKey key = some k) {xs : List EncSession} {rss : List (List (Out Unit))} {d : EncDir}
    (hl : EncLife C page EncDir.fresh xs rss d) (hs : SameKey key k page xs) {rand : Bytes} (hrand : rand.length = 11)
    {s0 s1 s2 : Inst (Bytes × Bytes)} {es1 es2 : List (Ev (Bytes × Bytes))} {rs1 rs2 : List (Out Unit)}
    (hopen : openAt (encrypted C) (k, initNonce d.nonceFile rand) page d.file 8 (some q) = some s0)
    {S : Store} (h0 : s0.Shows S)
    (hrun1 : run (encrypted C) s0 es1 = some (s1, rs1)) (hrun2 : run (encrypted C) s1 es2 = some (s2, rs2))
    (hfit : ∀ e ∈ es1 ++ es2, e.EncFits k page) (hadd : ∀ e ∈ es1 ++ es2, e.Adds)
    (hnew : (putKeys (es1 ++ es2)).Nodup) (habs : ∀ key' ∈ putKeys (es1 ++ es2), S key' = none)
    (hroom : page * (encCallCount xs + (calls (es1 ++ es2)).length) + 8 < 2 ^ 64)
    (hctr : encCallCount xs + (calls (es1 ++ es2)).length < 2 ^ 32 - 1) :
    Survives Store.empty (encCalls xs) S ∧ ∃ m1 m2, m1 ≤ m2 ∧ m2 ≤ (calls (es1 ++ es2)).length ∧
      (∀ half rand', ∃ i1, openEnc C page key rand' (encLeft s1 half) = some i1 ∧ i1.Shows (S.run ((calls (es1 ++ es2)).take m1))) ∧
      (∀ half rand', ∃ i2, openEnc C page key rand' (encLeft s2 half) = some i2 ∧ i2.Shows (S.run ((calls (es1 ++ es2)).take m2))) ∧
      ∀ k x, S.run ((calls (es1 ++ es2)).take m1) k = some x → S.run ((calls (es1 ++ es2)).take m2) k = some x := by
  have hmul : page * (0 + encCallCount xs) ≤ page * (encCallCount xs + (calls (es1 ++ es2)).length) := Nat.mul_le_mul_left _ (by omega)
  obtain ⟨_, S', hS, hg⟩ := encLife_good (h8 := h8) h32 hk hl (K := 0) encGood_fresh hs (by omega) (by omega)
  rw [Nat.zero_add] at hg
  have hv : view s0.noq.kv = S' := by
    obtain ⟨sx, hsx, hd, _⟩ := dinv_open (E := encEnv C page h8 False) (i := (k, initNonce d.nonceFile rand)) (hg rand)
    have h1 := openAt_noq hopen
    have hsx' : openAt (encrypted C) (k, initNonce d.nonceFile rand) page d.file = some sx := hsx
    rw [h1] at hsx'
    injection hsx' with hsx'
    rw [hsx']
    simpa [Store.run] using hd.kvView
  have hSS : S' = S := by rw [← hv]; exact (shows_open hopen).1 h0
  subst hSS
  refine ⟨hS, ?_⟩
  have hidx : ∀ (es : List (Ev (Bytes × Bytes))) {s s' : Inst (Bytes × Bytes)} {rs : List (Out Unit)}, (∀ e ∈ es, e.EncFits k page) →
      s.idx.1 = k ∧ s.idx.2.length = nonceLen → run (encrypted C) s es = some (s', rs) → s'.idx.1 = k ∧ s'.idx.2.length = nonceLen := by
    intro es s s' rs hf h hr
    refine idx_run (P := fun i => i.1 = k ∧ i.2.length = nonceLen) es h ?_ hr
    intro i hi
    exact hf _ hi
  have hi0 : s0.idx.1 = k ∧ s0.idx.2.length = nonceLen := by
    rw [openAt_idx hopen]
    exact ⟨rfl, initNonce_length hrand⟩
  have hi1 := hidx es1 (fun e he => hfit e (List.mem_append_left _ he)) hi0 hrun1
  have hi2 := hidx es2 (fun e he => hfit e (List.mem_append_right _ he)) hi1 hrun2
  obtain ⟨m1, m2, hle, hle2, hg1, hg2, hr1, hr2, hkeep⟩ := shadow_two (E := encEnv C page h8 False) (hg rand) hopen hrun1 hrun2
    (fun e he => (hfit e he).ok h32) hadd hnew habs ⟨hroom, by simpa [encEnv, aeadPos, counterMax] using hctr⟩
  have hgd1 : GoodDir (encEnv C page h8 False) (encCallCount xs + (calls es1).length) s1.dir (S'.run ((calls (es1 ++ es2)).take m1)) := by
    intro i hi
    have : i = s1.idx := hi _ (by simp [dir, hr1])
    rw [this]; exact hg1
  have hgd2 : GoodDir (encEnv C page h8 False) (encCallCount xs + (calls (es1 ++ es2)).length) s2.dir (S'.run ((calls (es1 ++ es2)).take m2)) := by
    intro i hi
    have : i = s2.idx := hi _ (by simp [dir, hr2])
    rw [this]; exact hg2
  exact ⟨m1, m2, hle, hle2, fun half rand' => openEnc_good hk (encGood_left hgd1 hi1.1 hi1.2 half) rand',
    fun half rand' => openEnc_good hk (encGood_left hgd2 hi2.1 hi2.2 half) rand', hkeep⟩

/-! ### C70 -/


/-- The store's own session behind a concurrent history in which all calls have returned without failure, followed by a close:
its calls are those of a linearization. -/
theorem threads_session {codecs : ι → Codec} (Q : Ev ι → Prop) {i : ι} {page : Nat} {file : Bytes} {s0 : Inst ι} {S0 : Store}
    {s : Threads ι} {es : List (TEv ι)} {h : List (HEv Op Res)}
    (hopen : openAt codecs i page file = some s0) (h0 : s0.Shows S0) (hrun : Threads.run codecs { inst := s0 } es = some (s, h))
    (hQ : ∀ e ∈ es, e.Chosen Q) (hback : ∀ t, s.th t = .idle) (hok : ∀ t r, .res t r ∈ h → r.failed = false)
    {ios : List Order} {s' : Inst ι} (hclose : Inst.run codecs s.inst (.drop :: ios.map .io) = some (s', [])) :
    ∃ L last es' rs, Linearization MapBehaves S0 h L last ∧ Inst.run codecs s0 es' = some (s', rs) ∧ last = S0.run (calls es') ∧
      (calls es').length ≤ h.length ∧ (∀ m ∈ calls es', ∃ t, .inv t (.mut m) ∈ h) ∧
      (∀ o, .io o ∈ es' → Q (.io o) ∨ o ∈ ios) ∧ (∀ j, .api j ∈ es' → Q (.api j)) := by
  obtain ⟨L, σ, hi⟩ := Threads.tinv_run es (Threads.tinv_start Q hopen) hQ hrun
  rw [(shows_open hopen).1 h0] at hi
  simp only [List.nil_append] at hi
  obtain ⟨h1, h2, h3⟩ := tinv_map hi ⟨hok, fun t r ht => by rw [hback t] at ht; cases ht⟩
  have hfree : s.owner = none := by
    cases ho : s.owner with
    | none => rfl
    | some t =>
      obtain ⟨_, m, hm, _⟩ := hi.held t ho
      rw [hback t] at hm; cases hm
  obtain ⟨_, _, es', rs, g1, g2, g3, g4⟩ := hi.free hfree
  simp only [List.append_nil] at g2
  have hall := inst_run_append es' _ g1 hclose
  have hcalls : calls (es' ++ Ev.drop :: ios.map Ev.io) = L.filterMap Threads.mutOf := by
    rw [calls_append, g2, calls_cons]
    have : calls (ios.map (Ev.io (ι := ι))) = [] := by
      clear hclose hall
      induction ios with
      | nil => rfl
      | cons o ios ih => rw [List.map_cons, calls_cons, ih]; rfl
    rw [this]
    simp [Ev.call?]
  refine ⟨L, σ.map, _, _, h2, hall, ?_, ?_, ?_, ?_, ?_⟩
  · rw [hcalls]; exact legal_final h2.legal
  · rw [hcalls]
    refine Nat.le_trans (List.length_filterMap_le _ _) ?_
    have := nodup_lt_length (n := h.length) h2.distinct (by
      intro p hp
      obtain ⟨x, hx, rfl⟩ := List.mem_map.1 hp
      exact h2.lt_length hx)
    simpa using this
  · rw [hcalls]
    intro m hm
    obtain ⟨⟨p, op, r⟩, hx, hxm⟩ := List.mem_filterMap.1 hm
    obtain ⟨t, ht⟩ := h2.invoked _ hx
    cases op with
    | get k t => simp [Threads.mutOf] at hxm
    | «mut» m' =>
      simp only [Threads.mutOf, Option.some.injEq] at hxm
      subst hxm
      exact ⟨t, List.mem_of_getElem? ht⟩
  · intro o ho
    rcases List.mem_append.1 ho with ho | ho
    · exact .inl (g4 _ ho)
    · simp only [List.mem_cons, reduceCtorEq, List.mem_map, Ev.io.injEq, exists_eq_right, false_or] at ho
      exact .inr ho
  · intro j hj
    rcases List.mem_append.1 hj with hj | hj
    · exact g4 _ hj
    · simp at hj

/-- **C70**, what is saved, with a past: any number of threads work on a directory with any history of earlier sessions, closed or
killed, records of at most a page.  When all calls have returned, none with a failure, and the close of the last handle has
returned, opening the directory again shows the map at the end of a linearization of what the threads observed, which begins with
what the session found. -/
theorem C70_saved_with_past {page : Nat} (h8 : 8 ≤ page) (h32 : page < 2 ^ 32) {xs : List (Session Unit)} {rss : List (List (Out Unit))}
    {d : Dir Unit} (hl : Life plain page Dir.fresh xs rss d) (hfit : ∀ x ∈ xs, ∀ e ∈ x.evs, e.Fits page)
    {s0 : Inst Unit} {s : Threads Unit} {es : List (TEv Unit)} {h : List (HEv Op Res)}
    (hopen : openAt plain () page d.file = some s0) (hrun : Threads.run plain { inst := s0 } es = some (s, h))
    (hord : ∀ o, TEv.io o ∈ es → ∀ l, (o l).Perm l) (hback : ∀ t, s.th t = .idle)
    (hok : ∀ t r, .res t r ∈ h → r.failed = false)
    {ios : List Order} (hord' : ∀ o ∈ ios, ∀ l, (o l).Perm l) {s' : Inst Unit}
    (hclose : Inst.run plain s.inst (.drop :: ios.map .io) = some (s', [])) (hclosed : s'.closedOk)
    (hsize : ∀ t op, .inv t op ∈ h → opBytes op ≤ page) (hroom : page * (callCount xs + h.length) + 8 < 2 ^ 64) :
    ∃ S L last s'', Survives Store.empty (sessionCalls xs) S ∧ s0.Shows S ∧ Linearization MapBehaves S h L last ∧
      openAt plain () page s'.disk = some s'' ∧ s''.Shows last := by
  have hmul : page * callCount xs ≤ page * (callCount xs + h.length) := Nat.mul_le_mul_left _ (by omega)
  obtain ⟨S, hS, hsh, _, _⟩ := plain_session h8 h32 hl hfit hopen (es := []) (s := s0) (rs := []) rfl (by simp)
    (by simpa [calls] using by omega)
  obtain ⟨L, last, es', rs, h1, h2, h3, h4, h5, h6, h7⟩ := threads_session (fun e => ∀ o, e = .io o → ∀ l, (o l).Perm l) hopen hsh hrun (by
    intro e he
    cases e with
    | io o => intro o' ho; cases ho; exact hord o he
    | work t i => intro o ho; cases ho
    | _ => trivial) hback hok hclose
  have hroom' : page * (callCount xs + (calls es').length) + 8 < 2 ^ 64 := by
    have := Nat.mul_le_mul_left page (show callCount xs + (calls es').length ≤ callCount xs + h.length by omega)
    omega
  obtain ⟨S', _, hsh', _, hd⟩ := plain_session h8 h32 hl hfit hopen h2 (by
    intro e he
    have hc : ∀ m, e.call? = some m → opBytes (.mut m) ≤ page := by
      intro m hm
      obtain ⟨t, ht⟩ := h5 m (List.mem_filterMap.2 ⟨e, he, hm⟩)
      exact hsize t _ ht
    cases e with
    | put k t bs => exact hc _ rfl
    | delete k => exact hc _ rfl
    | io o =>
      rcases h6 o he with h | h
      · exact h o rfl
      · exact hord' o h
    | clear => trivial
    | api i => trivial
    | drop => trivial) hroom'
  have hSS : S' = S := by rw [← (shows_open hopen).1 hsh', ← (shows_open hopen).1 hsh]
  subst hSS
  obtain ⟨_, hg⟩ := disk_closed hd hclosed
  obtain ⟨s'', hs'', hd'', _⟩ := dinv_open (E := plainEnv page h8 False) (i := ()) hg
  refine ⟨S', L, last, s'', hS, hsh, h1, hs'', shows_of_view hs'' ?_⟩
  rw [h3]
  simpa [Store.run] using hd''.kvView

/-- **C70**, what is saved, with encryption and any past: as `C70_saved_with_past`; whatever process opens the directory with the
key afterwards sees the map at the end of the linearization. -/
theorem C70_saved_encrypted (C : Cipher) {page : Nat} (h8 : 8 ≤ page) (h32 : page < 2 ^ 32) {key : String} {k : Bytes}
    (hk : decodeKey key = some k) {xs : List EncSession} {rss : List (List (Out Unit))} {d : EncDir}
    (hl : EncLife C page EncDir.fresh xs rss d) (hs : SameKey key k page xs) {rand : Bytes} (hrand : rand.length = 11)
    {s0 : Inst (Bytes × Bytes)} {s : Threads (Bytes × Bytes)} {es : List (TEv (Bytes × Bytes))} {h : List (HEv Op Res)}
    (hopen : openEnc C page key rand d = some s0) (hrun : Threads.run (encrypted C) { inst := s0 } es = some (s, h))
    (hord : ∀ o, TEv.io o ∈ es → ∀ l, (o l).Perm l) (hwork : ∀ t i, TEv.work t i ∈ es → i.1 = k ∧ i.2.length = 11)
    (hback : ∀ t, s.th t = .idle) (hok : ∀ t r, .res t r ∈ h → r.failed = false)
    {ios : List Order} (hord' : ∀ o ∈ ios, ∀ l, (o l).Perm l) {s' : Inst (Bytes × Bytes)}
    (hclose : Inst.run (encrypted C) s.inst (.drop :: ios.map .io) = some (s', [])) (hclosed : s'.closedOk)
    (hsize : ∀ t op, .inv t op ∈ h → encOpBytes op ≤ page) (hroom : page * (encCallCount xs + h.length) + 8 < 2 ^ 64)
    (hctr : encCallCount xs + h.length < 2 ^ 32 - 1) :
    ∃ S L last, Survives Store.empty (encCalls xs) S ∧ s0.Shows S ∧ Linearization MapBehaves S h L last ∧
      ∀ half rand', ∃ s'', openEnc C page key rand' (encLeft s' half) = some s'' ∧ s''.Shows last := by
  have hmul : page * (0 + encCallCount xs) ≤ page * (encCallCount xs + h.length) := Nat.mul_le_mul_left _ (by omega)
  obtain ⟨_, S, hS, hg⟩ := encLife_good (h8 := h8) h32 hk hl (K := 0) encGood_fresh hs (by omega) (by omega)
  rw [Nat.zero_add] at hg hmul
  obtain ⟨hsh, _, _, _, _⟩ := encGood_session h32 hk hg hrand hopen (es := []) (s := s0) (rs := []) rfl (by simp)
    (by simpa [calls] using by omega) (by simpa [calls] using by omega)
  have hopen' := hopen
  rw [openEnc_eq hk] at hopen'
  obtain ⟨L, last, es', rs, h1, h2, h3, h4, h5, h6, h7⟩ := threads_session
    (fun e => (∀ o, e = .io o → ∀ l, (o l).Perm l) ∧ ∀ i, e = .api i → i.1 = k ∧ i.2.length = 11) hopen' hsh hrun (by
    intro e he
    cases e with
    | io o => exact ⟨fun o' ho => by cases ho; exact hord o he, fun i hi => by cases hi⟩
    | work t i => exact ⟨fun o ho => (by cases ho), fun j hj => by cases hj; exact hwork t i he⟩
    | _ => trivial) hback hok hclose
  have hroom' : page * (encCallCount xs + (calls es').length) + 8 < 2 ^ 64 := by
    have := Nat.mul_le_mul_left page (show encCallCount xs + (calls es').length ≤ encCallCount xs + h.length by omega)
    omega
  obtain ⟨_, _, hd, hi1, hi2⟩ := encGood_session h32 hk hg hrand hopen h2 (by
    intro e he
    have hc : ∀ m, e.call? = some m → encOpBytes (.mut m) ≤ page := by
      intro m hm
      obtain ⟨t, ht⟩ := h5 m (List.mem_filterMap.2 ⟨e, he, hm⟩)
      exact hsize t _ ht
    cases e with
    | put k t bs => exact hc _ rfl
    | delete k => exact hc _ rfl
    | io o =>
      rcases h6 o he with h | h
      · exact h.1 o rfl
      · exact hord' o h
    | clear => trivial
    | api i => exact (h7 i he).2 i rfl
    | drop => trivial) hroom' (by omega)
  obtain ⟨m, hm, hmc, hgd⟩ := goodDir_end hd true (fun _ => hclosed)
  rw [hmc rfl, List.take_length, ← h3] at hgd
  exact ⟨S, L, last, hS, hsh, h1, fun half rand' => openEnc_good hk (encGood_left hgd hi1 hi2 half) rand'⟩

/-! ### C94 -/

/-- A copy of the file of a session without `clear_data` whose records fit the file. -/
theorem copied_fits {E : Env ι} {i : ι} {K : Nat} {file : Bytes} {S : Store} {s0 s1 s2 : Inst ι}
    {es1 es2 : List (Ev ι)} {rs1 rs2 : List (Out Unit)} (hg : GoodFile E (E.codecs i) K file S)
    (hopen : openAt E.codecs i E.page file = some s0)
    (hrun1 : run E.codecs s0 es1 = some (s1, rs1)) (hrun2 : run E.codecs s1 es2 = some (s2, rs2)) (hclear : ∀ e ∈ es1 ++ es2, e ≠ .clear)
    (hok : ∀ e ∈ es1 ++ es2, e.Ok E) (hroomE : E.Room (K + (calls (es1 ++ es2)).length))
    (hspace : 8 + header file + ((calls (es1 ++ es2)).map (mutSize E.recLen)).sum ≤ if file.length = 0 then E.page else file.length)
    {t : Nat → Nat} {c : Bytes} (hcopy : Copied s0.disk s2.lp.cb.ws.log t c) (hwhen : t 0 = s1.lp.cb.ws.log.length) :
    s1.idx = i ∧ ∃ m ≤ (calls es1).length, (s1.phase = .idle ∧ s1.lp.io = .recv ∧ s1.lp.chan = [] → m = (calls es1).length) ∧
      ∃ s'', openAt E.codecs i E.page c = some s'' ∧ s''.Shows (S.run ((calls es1).take m)) := by
  have hne : Nonempty ι := ⟨i⟩
  have hcalls : calls (es1 ++ es2) = calls es1 ++ calls es2 := by simp [calls, List.filterMap_append]
  obtain ⟨sx, hs1, hd0, _⟩ := dinv_open hg
  rw [hopen] at hs1
  injection hs1 with hs1
  subst hs1
  rw [hcalls, List.length_append] at hroomE
  obtain ⟨items0, _, hr0⟩ := rinv_open hg hopen
  obtain ⟨_, hd1⟩ := dinv_run es1 hd0 (fun e he => hok e (List.mem_append_left _ he)) (hroomE.mono (by simp)) hrun1
  rw [List.nil_append] at hd1
  rw [hcalls, List.map_append, List.sum_append] at hspace
  have hr1 := rinv_run hspace es1 hd0 hr0 (fun e he => hok e (List.mem_append_left _ he)) (fun e he => hclear e (List.mem_append_left _ he))
    (hroomE.mono (by simp)) (by omega) hrun1
  rw [List.nil_append] at hr1
  obtain ⟨hu0, hlog0, hmm0⟩ := uncleared_open hopen
  obtain ⟨hu1, ht1⟩ := uncleared_run es1 hu0 (fun e he => hclear e (List.mem_append_left _ he)) hrun1
  obtain ⟨l1, a1, a2, a3, _⟩ := ht1 hmm0
  obtain ⟨l2, b1, b2⟩ := rising_run hspace es2 hd1 hr1 hu1 a3 (fun e he => hok e (List.mem_append_right _ he)) (fun e he => hclear e (List.mem_append_right _ he))
    (hroomE.mono (by omega)) (by omega) hrun2
  rw [hlog0, List.nil_append] at a1
  have hdk0 : s0.disk = s0.lp.cb.ws.file := by simp [disk, hu0.rem]
  have hdk1 : s1.disk = s1.lp.cb.ws.file := by simp [disk, hu1.rem]
  have hhead : ∀ n, t 0 ≤ n → n ≤ s2.lp.cb.ws.log.length → header s1.disk ≤ header (fileAt s0.disk s2.lp.cb.ws.log n) := by
    intro n hn _
    obtain ⟨k, rfl⟩ : ∃ k, n = l1.length + k := ⟨n - l1.length, by rw [hwhen, a1] at hn; omega⟩
    rw [b1, a1, hdk0, fileAt_append, a2, hdk1]
    exact b2 0 k (Nat.zero_le _)
  have hfin : ∀ m, GoodFile E (E.codecs i) (K + (calls es1).length) s1.disk (S.run ((calls es1).take m)) →
      ∃ s'', openAt E.codecs i E.page c = some s'' ∧ s''.Shows (S.run ((calls es1).take m)) := by
    intro m hgf
    obtain ⟨sy, hy1, hy2, _⟩ := dinv_open hgf
    have hvy : view sy.kv = S.run ((calls es1).take m) := by simpa [Store.run] using hy2.kvView
    obtain ⟨s'', k1, _, k2⟩ := C94_partial hopen hrun1 hrun2 hclear hcopy hwhen hhead hy1 ((shows_open hy1).2 hvy)
    exact ⟨s'', k1, k2⟩
  refine ⟨hr1.ix, ?_⟩
  by_cases hidle : s1.phase = .idle ∧ s1.lp.io = .recv ∧ s1.lp.chan = []
  · obtain ⟨_, hgf⟩ := disk_drained hd1 hu1.clr (drained_at_rest hd1 hidle.1 hidle.2.1 hidle.2.2)
    refine ⟨(calls es1).length, Nat.le_refl _, fun _ => rfl, hfin _ ?_⟩
    rw [List.take_length, ← hr1.ix]
    exact hgf
  · obtain ⟨m, hm, hgf⟩ := disk_prefix hd1 i (fun _ => hr1.ix.symm)
    exact ⟨m, hm, fun h => absurd h hidle, hfin m hgf⟩

/-- **C94**, the proved part, with encryption and any past: a copy of the data file made while the program goes on, put next to a copy of
the nonce file (which does not change in a session without `clear_data`), opens with the key and shows the content after some first
part of the calls made when it was begun - all of them, if the background thread had nothing left to do then. -/
theorem C94_encrypted_partial (C : Cipher) {page : Nat} (h8 : 8 ≤ page) (h32 : page < 2 ^ 32) {key : String} {k : Bytes}
    (hk : decodeKey key = some k) {xs : List EncSession} {rss : List (List (Out Unit))} {d : EncDir}
    (hl : EncLife C page EncDir.fresh xs rss d) (hs : SameKey key k page xs) {rand : Bytes} (hrand : rand.length = 11)
    {s0 s1 s2 : Inst (Bytes × Bytes)} {S : Store} {es1 es2 : List (Ev (Bytes × Bytes))} {rs1 rs2 : List (Out Unit)}
    (hopen : openEnc C page key rand d = some s0) (h0 : s0.Shows S)
    (hrun1 : run (encrypted C) s0 es1 = some (s1, rs1)) (hrun2 : run (encrypted C) s1 es2 = some (s2, rs2))
    (hclear : ∀ e ∈ es1 ++ es2, e ≠ .clear) (hfit : ∀ e ∈ es1 ++ es2, e.EncFits k page)
    (hroom : page * (encCallCount xs + (calls (es1 ++ es2)).length) + 8 < 2 ^ 64)
    (hctr : encCallCount xs + (calls (es1 ++ es2)).length < 2 ^ 32 - 1)
    (hspace : 8 + header d.file + ((calls (es1 ++ es2)).map encCallSize).sum ≤ if d.file.length = 0 then page else d.file.length)
    {t : Nat → Nat} {c : Bytes} (hcopy : Copied s0.disk s2.lp.cb.ws.log t c) (hwhen : t 0 = s1.lp.cb.ws.log.length) :
    ∃ n, (encLeft s0 false).nonceFile = some n ∧ (encLeft s1 false).nonceFile = some n ∧
    ∃ m ≤ (calls es1).length, (s1.phase = .idle ∧ s1.lp.io = .recv ∧ s1.lp.chan = [] → m = (calls es1).length) ∧
      ∀ rand', ∃ s'', openEnc C page key rand' ⟨c, some n⟩ = some s'' ∧ s''.Shows (S.run ((calls es1).take m)) := by
  have hmul : page * (0 + encCallCount xs) ≤ page * (encCallCount xs + (calls (es1 ++ es2)).length) := Nat.mul_le_mul_left _ (by omega)
  obtain ⟨_, S', _, hg⟩ := encLife_good (h8 := h8) h32 hk hl (K := 0) encGood_fresh hs (by omega) (by omega)
  rw [Nat.zero_add] at hg
  have hopen' := hopen
  rw [openEnc_eq hk] at hopen'
  have hSS : S' = S := by
    obtain ⟨sx, hsx, hd, _⟩ := dinv_open (E := encEnv C page h8 False) (i := (k, initNonce d.nonceFile rand)) (hg rand)
    have hsx' : openAt (encrypted C) (k, initNonce d.nonceFile rand) page d.file = some sx := hsx
    rw [hopen'] at hsx'
    injection hsx' with hsx'
    subst hsx'
    have hv : view s0.kv = S' := by simpa [Store.run] using hd.kvView
    rw [← hv]; exact (shows_open hopen').1 h0
  subst hSS
  rw [encCallSize_eq C page h8 False] at hspace
  obtain ⟨hix, m, hm, hall, s'', ho, hsh⟩ := copied_fits (E := encEnv C page h8 False) (hg rand) hopen' hrun1 hrun2 hclear
    (fun e he => (hfit e he).ok h32) ⟨hroom, by simpa [encEnv, aeadPos, counterMax] using hctr⟩ hspace hcopy hwhen
  have hi0 := openAt_idx hopen'
  obtain ⟨hu0, _, _⟩ := uncleared_open hopen'
  obtain ⟨hu1, _⟩ := uncleared_run es1 hu0 (fun e he => hclear e (List.mem_append_left _ he)) hrun1
  have hn : (initNonce d.nonceFile rand).length = nonceLen := initNonce_length hrand
  refine ⟨initNonce d.nonceFile rand, by simp [encLeft, hu0.rem, hi0], by simp [encLeft, hu1.rem, hix], m, hm, hall, fun rand' => ⟨s'', ?_, hsh⟩⟩
  rw [openEnc_eq hk]
  have : initNonce (some (initNonce d.nonceFile rand)) rand' = initNonce d.nonceFile rand := by
    generalize initNonce d.nonceFile rand = x at hn
    simp [initNonce, hn]
  rw [show (EncDir.mk c (some (initNonce d.nonceFile rand))).nonceFile = some (initNonce d.nonceFile rand) from rfl, this]
  exact ho

/-! ### The hypotheses are met -/

/-- `C58_encrypted_partial`: a session whose second put finds the disk full; the thread dies, the first value stays. -/
example : ∃ s0 s1 s2 rs1 rs2, openAt (encrypted toy) (testKeyBytes, initNonce EncDir.fresh.nonceFile nonce1) 64 EncDir.fresh.file 8 (some 64) = some s0 ∧
    s0.Shows Store.empty ∧ run (encrypted toy) s0 (encPut (testKeyBytes, nonce1) "a" 6 (zeros 20)) = some (s1, rs1) ∧
    run (encrypted toy) s1 (encPut (testKeyBytes, nonce1) "b" 6 (zeros 20)) = some (s2, rs2) ∧ s1.lp.io = .recv ∧ s2.lp.io = .dead ∧
    fileRecords (encrypted toy (testKeyBytes, nonce1)) s2.disk = some [some ⟨"a", 6, zeros 20⟩] ∧
    (∀ e ∈ encPut (testKeyBytes, nonce1) "a" 6 (zeros 20) ++ encPut (testKeyBytes, nonce1) "b" 6 (zeros 20), e.Adds) := by
  have h : (match openAt (encrypted toy) (testKeyBytes, initNonce EncDir.fresh.nonceFile nonce1) 64 EncDir.fresh.file 8 (some 64) with
    | none => false
    | some s0 => match run (encrypted toy) s0 (encPut (testKeyBytes, nonce1) "a" 6 (zeros 20)) with
      | none => false
      | some (s1, _) => passes (run (encrypted toy) s1 (encPut (testKeyBytes, nonce1) "b" 6 (zeros 20))) fun s2 _ =>
        decide (s0.kv = [] ∧ s1.lp.io = .recv ∧ s2.lp.io = .dead ∧
        fileRecords (encrypted toy (testKeyBytes, nonce1)) s2.disk = some [some ⟨"a", 6, zeros 20⟩])) = true := by decide +kernel
  split at h
  · cases h
  rename_i s0 hs0
  split at h
  · cases h
  rename_i s1 rs1 hr1
  obtain ⟨s2, rs2, h1, h2⟩ := exists_of_passes h
  simp only [decide_eq_true_eq] at h2
  refine ⟨s0, s1, s2, rs1, rs2, hs0, (shows_open hs0).2 (by rw [h2.1]; rfl), hr1, h1, h2.2.1, h2.2.2.1, h2.2.2.2, ?_⟩
  intro e he
  simp only [encPut, List.cons_append, List.nil_append, List.mem_cons, List.not_mem_nil, or_false] at he
  repeat' rcases he with rfl | he
  all_goals trivial

/-- The schedule of `threadsDemo`, on an encrypted store. -/
def encThreadsDemo : List (TEv (Bytes × Bytes)) :=
  threadsDemo.map fun
    | .call t op => .call t op
    | .lock t => .lock t
    | .work t _ => .work t (testKeyBytes, nonce1)
    | .ret t => .ret t
    | .io o => .io o

/-- `C70_saved_encrypted`: the schedule of `threadsDemo`, on an encrypted store. -/
example : ∃ s0 s s', openEnc toy 64 testKey nonce1 EncDir.fresh = some s0 ∧
    Threads.run (encrypted toy) { inst := s0 } encThreadsDemo = some (s, threadsDemoHist) ∧ (∀ t, s.th t = .idle) ∧
    (∀ t i, TEv.work t i ∈ encThreadsDemo → i.1 = testKeyBytes ∧ i.2.length = 11) ∧
    Inst.run (encrypted toy) s.inst (.drop :: (List.replicate 7 (id : Order)).map .io) = some (s', []) ∧ s'.closedOk ∧
    (∀ t op, .inv t op ∈ threadsDemoHist → encOpBytes op ≤ 64) := by
  have h : (match openEnc toy 64 testKey nonce1 EncDir.fresh with
    | none => false
    | some s0 => match Threads.run (encrypted toy) { inst := s0 } encThreadsDemo with
      | none => false
      | some (s, h) => decide (h = threadsDemoHist) && decide (s.th 0 = .idle) && decide (s.th 1 = .idle) &&
        passes (Inst.run (encrypted toy) s.inst (.drop :: (List.replicate 7 (id : Order)).map .io)) fun s' rs =>
          decide (rs = [] ∧ s'.phase = .closed ∧ s'.lp.io = .exited)) = true := by decide +kernel
  split at h
  · cases h
  rename_i s0 hs0
  split at h
  · cases h
  rename_i s hh hr
  simp only [Bool.and_eq_true, decide_eq_true_eq] at h
  obtain ⟨⟨⟨rfl, e0⟩, e1⟩, hp⟩ := h
  obtain ⟨s', rs, hc, hq⟩ := exists_of_passes hp
  simp only [decide_eq_true_eq] at hq
  obtain ⟨rfl, q1, q2⟩ := hq
  refine ⟨s0, s, s', hs0, hr, ?_, ?_, hc, ⟨q1, q2⟩, ?_⟩
  · intro t
    by_cases ht0 : t = 0
    · subst ht0; exact e0
    by_cases ht1 : t = 1
    · subst ht1; exact e1
    exact idle_run _ hr rfl (by intro op; simp [encThreadsDemo, threadsDemo, ht0, ht1])
  · intro t i hi
    simp [encThreadsDemo, threadsDemo] at hi
    have : i = (testKeyBytes, nonce1) := by rcases hi with h | h | h | h <;> exact h.2
    rw [this]; exact ⟨rfl, rfl⟩
  · intro t op he
    simp [threadsDemoHist] at he
    rcases he with h | h | h <;> (obtain ⟨_, rfl⟩ := h; decide +kernel)

/-- `C94_encrypted_partial`: the copy has the header of the moment after the first put and bytes of the moment after the second. -/
example : ∃ s0 s1 s2 rs1 rs2 t c, openEnc toy 80 testKey nonce1 EncDir.fresh = some s0 ∧ s0.Shows Store.empty ∧
    run (encrypted toy) s0 (encPut (testKeyBytes, nonce1) "a" 6 [1, 2]) = some (s1, rs1) ∧
    run (encrypted toy) s1 (encPut (testKeyBytes, nonce1) "b" 6 [3]) = some (s2, rs2) ∧
    8 + header EncDir.fresh.file + ((calls (encPut (testKeyBytes, nonce1) "a" 6 [1, 2] ++ encPut (testKeyBytes, nonce1) "b" 6 [3])).map encCallSize).sum ≤ 80 ∧
    Copied s0.disk s2.lp.cb.ws.log t c ∧ t 0 = s1.lp.cb.ws.log.length ∧ c ≠ s1.disk ∧ c ≠ s2.disk := by
  have h : (match openEnc toy 80 testKey nonce1 EncDir.fresh with
      | none => false
      | some s0 => match run (encrypted toy) s0 (encPut (testKeyBytes, nonce1) "a" 6 [1, 2]) with
        | none => false
        | some (s1, rs1) => match run (encrypted toy) s1 (encPut (testKeyBytes, nonce1) "b" 6 [3]) with
          | none => false
          | some (s2, rs2) => decide (s0.kv = [] ∧ s1.lp.cb.ws.log.length = 2 ∧ s2.lp.cb.ws.log.length = 4 ∧ 24 ≤ (fileAt s0.disk s2.lp.cb.ws.log 2).length ∧
                24 ≤ (fileAt s0.disk s2.lp.cb.ws.log s2.lp.cb.ws.log.length).length ∧
                (fileAt s0.disk s2.lp.cb.ws.log 2).take 24 ++ (fileAt s0.disk s2.lp.cb.ws.log s2.lp.cb.ws.log.length).drop 24 ≠ s1.disk ∧
                (fileAt s0.disk s2.lp.cb.ws.log 2).take 24 ++ (fileAt s0.disk s2.lp.cb.ws.log s2.lp.cb.ws.log.length).drop 24 ≠ s2.disk)) = true := by decide +kernel
  split at h
  · cases h
  rename_i s0 h0
  split at h
  · cases h
  rename_i s1 rs1 h1
  split at h
  · cases h
  rename_i s2 rs2 h2
  simp only [decide_eq_true_eq] at h
  obtain ⟨g0, g1, g2, g3, g4, g5, g6⟩ := h
  have h0' := h0
  rw [openEnc_eq decode_testKey] at h0'
  refine ⟨s0, s1, s2, rs1, rs2, _, _, h0, (shows_open h0').2 (by rw [g0]; rfl), h1, h2, by decide +kernel, copied_two (by omega) (by omega) g3 g4, ?_, g5, g6⟩
  rw [if_pos (by omega)]; exact g1.symm

end Mmkv
