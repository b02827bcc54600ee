import Verif.Props.Quota
import Verif.Props.EncLife2
import Verif.Lemmas.Grow
import Verif.Lemmas.Alike
/-!
# C96: a system call that fails while the data file grows
-/

namespace Mmkv
open Spec Inst
variable {ι : Type}

/-- The thread that writes is alive and at a job, and `clear_data` is not about to open the file again. -/
theorem not_clrOpen {codecs : ι → Codec} {s : Inst ι} (hb : Book codecs s) (hrun : s.lp.io = .run) : s.phase ≠ .clrOpen := by
  intro hp
  have := (hb.joined hp).1
  rw [hrun] at this
  cases this

/-- **C96**, what is true: in a session that has saved its first `m` calls, a system call fails while the file grows for
the next one, `mu`.  Whichever it is, and whatever is called afterwards (short of another `clear_data`), the directory opens
again.  It shows exactly the `m` calls saved - or, if the growth was part of a compaction, some of the entries there would
be after `mu`, no others, and never all of them.
Missing from C96: the entries a compaction has not yet written back are lost (`C96_refuted`). -/
theorem C96_partial {page : Nat} (h8 : 8 ≤ page) (h32 : page < 2 ^ 32) {file : Bytes} {s0 s1 s2 s3 : Inst Unit} {S0 : Store}
    {es1 es2 : List (Ev Unit)} {rs1 rs2 : List (Out Unit)} (hopen : openAt plain () page file = some s0)
    (h0 : s0.Shows S0) (hrec : RecordsFit page file ∨ Canonical file)
    (hrun1 : run plain s0 es1 = some (s1, rs1)) (hfit : ∀ e ∈ es1, e.Fits page)
    (hroom : page * (file.length + (calls es1).length) + 8 < 2 ^ 64)
    {o : Order} (ho : ∀ l, (o l).Perm l) {skip : Nat} {p : GrowCall}
    (hgrow : growStep plain s1 o skip p = some s2) (hfail : s2.lp.io = .unwinding)
    (hrun2 : run plain s2 es2 = some (s3, rs2)) (hclr : ∀ e ∈ es2, e ≠ .clear) :
    ∃ m mu S' i1 i3, (calls es1)[m]? = some mu ∧
      openAt plain () page s1.disk = some i1 ∧ i1.Shows (S0.run ((calls es1).take m)) ∧
      openAt plain () page s3.disk = some i3 ∧ i3.Shows S' ∧
      (S' = S0.run ((calls es1).take m) ∨
        ((∀ k x, S' k = some x → (S0.run ((calls es1).take m)).apply mu k = some x) ∧ S' ≠ (S0.run ((calls es1).take m)).apply mu)) := by
  have hS0 : view s0.kv = S0 := (shows_open hopen).1 h0
  have hg := goodFile_of_open (h8 := h8) (h32 := h32) hopen hrec
  rw [hS0] at hg
  obtain ⟨s0', ho', hd0, _⟩ := dinv_open (E := plainEnv page h8 True) (i := ()) hg
  have ho'' : openAt plain () page file = some s0' := ho'
  rw [hopen] at ho''
  cases ho''
  obtain ⟨_, hd1⟩ := dinv_run es1 hd0 (fun e he => (hfit e he).ok h32) (plain_room (by simpa using hroom)) hrun1
  simp only [List.nil_append] at hd1
  obtain ⟨b, dup, rest, m, S', _, hrun, hm, hg1, hg2, _, hph, _, hcase⟩ :=
    grow_fail (E := plainEnv page h8 True) hd1 (plain_room hroom) ho hgrow hfail
  obtain ⟨hcb, _⟩ := dead_run es2 (.inl hfail) (by rw [hph]; exact not_clrOpen hd1.book hrun) hclr hrun2
  have hdisk : s3.disk = s2.disk := by unfold disk; rw [hcb]
  obtain ⟨i1, hi1, hdi1, _⟩ := dinv_open hg1
  obtain ⟨i3, hi3, hdi3, _⟩ := dinv_open hg2
  have hnext : S0.run ((calls es1).take (m + 1)) = (S0.run ((calls es1).take m)).apply b.mutation := by
    rw [List.take_add_one, hm]
    simp [Store.run]
  rw [← hdisk] at hi3
  refine ⟨m, b.mutation, S', i1, i3, hm, hi1, shows_of_view hi1 hdi1.kvView, hi3, shows_of_view hi3 hdi3.kvView, ?_⟩
  rcases hcase with ⟨_, h⟩ | ⟨_, h1, k, x, h2, h3⟩
  · exact .inl h
  · rw [hnext] at h1 h2
    exact .inr ⟨h1, fun he => by rw [he, h2] at h3; cases h3⟩

/-- The model of a failing growth is the model of the code: a step of the background thread in which the failure is not
reached is the ordinary step. -/
theorem C96_no_failure_no_difference {page : Nat} (h8 : 8 ≤ page) (h32 : page < 2 ^ 32) {file : Bytes} {s0 s1 s2 : Inst Unit} {S0 : Store}
    {es1 : List (Ev Unit)} {rs1 : List (Out Unit)} (hopen : openAt plain () page file = some s0)
    (h0 : s0.Shows S0) (hrec : RecordsFit page file ∨ Canonical file)
    (hrun1 : run plain s0 es1 = some (s1, rs1)) (hfit : ∀ e ∈ es1, e.Fits page)
    (hroom : page * (file.length + (calls es1).length) + 8 < 2 ^ 64)
    {o : Order} (ho : ∀ l, (o l).Perm l) {skip : Nat} {p : GrowCall}
    (hgrow : growStep plain s1 o skip p = some s2) (hfine : s2.lp.io ≠ .unwinding) : step plain s1 (.io o) = some (s2, none) := by
  have hS0 : view s0.kv = S0 := (shows_open hopen).1 h0
  have hg := goodFile_of_open (h8 := h8) (h32 := h32) hopen hrec
  rw [hS0] at hg
  obtain ⟨s0', ho', hd0, _⟩ := dinv_open (E := plainEnv page h8 True) (i := ()) hg
  have ho'' : openAt plain () page file = some s0' := ho'
  rw [hopen] at ho''
  cases ho''
  obtain ⟨_, hd1⟩ := dinv_run es1 hd0 (fun e he => (hfit e he).ok h32) (plain_room (by simpa using hroom)) hrun1
  simp only [List.nil_append] at hd1
  exact grow_fine (E := plainEnv page h8 True) hd1 (plain_room hroom) ho hgrow hfine

/-- **C96** holds in full for a session that only adds: every call puts a key that was not there before. -/
theorem C96_adds {page : Nat} (h8 : 8 ≤ page) (h32 : page < 2 ^ 32) {file : Bytes} {s0 s1 s2 s3 : Inst Unit} {S0 : Store}
    {es1 es2 : List (Ev Unit)} {rs1 rs2 : List (Out Unit)} (hopen : openAt plain () page file = some s0)
    (h0 : s0.Shows S0) (hrec : RecordsFit page file ∨ Canonical file)
    (hrun1 : run plain s0 es1 = some (s1, rs1)) (hfit : ∀ e ∈ es1, e.Fits page)
    (hroom : page * (file.length + (calls es1).length) + 8 < 2 ^ 64)
    (hadd : ∀ e ∈ es1, e.Adds) (hnew : (putKeys es1).Nodup) (habs : ∀ k ∈ putKeys es1, S0 k = none)
    {o : Order} (ho : ∀ l, (o l).Perm l) {skip : Nat} {p : GrowCall}
    (hgrow : growStep plain s1 o skip p = some s2) (hfail : s2.lp.io = .unwinding)
    (hrun2 : run plain s2 es2 = some (s3, rs2)) (hclr : ∀ e ∈ es2, e ≠ .clear) :
    ∃ m i1 i3, m < (calls es1).length ∧
      openAt plain () page s1.disk = some i1 ∧ i1.Shows (S0.run ((calls es1).take m)) ∧
      openAt plain () page s3.disk = some i3 ∧ i3.Shows (S0.run ((calls es1).take m)) := by
  have hS0 : view s0.kv = S0 := (shows_open hopen).1 h0
  have hg := goodFile_of_open (h8 := h8) (h32 := h32) hopen hrec
  rw [hS0] at hg
  have hsh0 := shadow_open (E := plainEnv page h8 True) (i := ()) (q := none) hg hopen
  obtain ⟨a1, c1, hsh1, _⟩ := shadow_run es1 hsh0 (fun e he => (hfit e he).ok h32) hadd hnew habs (plain_room (by simpa using hroom)) hrun1
  simp only [List.nil_append] at hsh1
  obtain ⟨s0', ho', hd0, _⟩ := dinv_open (E := plainEnv page h8 True) (i := ()) hg
  have ho'' : openAt plain () page file = some s0' := ho'
  rw [hopen] at ho''
  cases ho''
  obtain ⟨_, hd1⟩ := dinv_run es1 hd0 (fun e he => (hfit e he).ok h32) (plain_room (by simpa using hroom)) hrun1
  simp only [List.nil_append] at hd1
  obtain ⟨b, dup, rest, m, S', hbuf, hrun, hm, hg1, hg2, _, hph, _, hcase⟩ :=
    grow_fail (E := plainEnv page h8 True) hd1 (plain_room hroom) ho hgrow hfail
  obtain ⟨hcb, _⟩ := dead_run es2 (.inl hfail) (by rw [hph]; exact not_clrOpen hd1.book hrun) hclr hrun2
  have hdisk : s3.disk = s2.disk := by unfold disk; rw [hcb]
  obtain ⟨ha, hc⟩ := hsh1.sync (by unfold Alive; rw [hrun]; exact ⟨by simp, by simp⟩)
  have hnt : s1.lp.cb.ws.needTrim = false := by have := hsh1.noTrim; rw [ha] at this; exact this
  have hdup : dup = false := by
    refine hsh1.fresh b dup ?_
    rw [ha]
    exact (head_job hd1.book hbuf).1
  obtain ⟨i1, hi1, hdi1, _⟩ := dinv_open hg1
  obtain ⟨i3, hi3, hdi3, _⟩ := dinv_open hg2
  rw [← hdisk] at hi3
  rcases hcase with ⟨_, h⟩ | ⟨h, _⟩
  · subst h
    have hlt : m < (calls es1).length := by
      rcases Nat.lt_or_ge m (calls es1).length with h | h
      · exact h
      · rw [List.getElem?_eq_none h] at hm; cases hm
    exact ⟨m, i1, i3, hlt, hi1, shows_of_view hi1 hdi1.kvView, hi3, shows_of_view hi3 hdi3.kvView⟩
  · rw [hnt, hdup] at h
    cases h

/-- **C96**, what is true, for an encrypted store with any past. -/
theorem C96_encrypted_partial (C : Cipher) {page : Nat} (h8 : 8 ≤ page) (h32 : page < 2 ^ 32) {key : String} {k : Bytes}
    (hk : decodeKey key = some k) {xs : List EncSession} {rss : List (List (Out Unit))} {d : EncDir}
    (hl : EncLife C page EncDir.fresh xs rss d) (hs : SameKey key k page xs) {rand : Bytes} (hrand : rand.length = 11)
    {s0 s1 s2 s3 : Inst (Bytes × Bytes)} {es1 es2 : List (Ev (Bytes × Bytes))} {rs1 rs2 : List (Out Unit)}
    (hopen : openEnc C page key rand d = some s0) (hrun1 : run (encrypted C) s0 es1 = some (s1, rs1))
    (hfit : ∀ e ∈ es1, e.EncFits k page)
    (hroom : page * (encCallCount xs + (calls es1).length) + 8 < 2 ^ 64)
    (hctr : encCallCount xs + (calls es1).length < 2 ^ 32 - 1)
    {o : Order} (ho : ∀ l, (o l).Perm l) {skip : Nat} {p : GrowCall}
    (hgrow : growStep (encrypted C) s1 o skip p = some s2) (hfail : s2.lp.io = .unwinding)
    (hrun2 : run (encrypted C) s2 es2 = some (s3, rs2)) (hclr : ∀ e ∈ es2, e ≠ .clear) :
    ∃ S0 m mu S', s0.Shows S0 ∧ (calls es1)[m]? = some mu ∧
      (∀ half rand', ∃ i1, openEnc C page key rand' (encLeft s1 half) = some i1 ∧ i1.Shows (S0.run ((calls es1).take m))) ∧
      (∀ half rand', ∃ i3, openEnc C page key rand' (encLeft s3 half) = some i3 ∧ i3.Shows S') ∧
      (S' = S0.run ((calls es1).take m) ∨
        ((∀ k x, S' k = some x → (S0.run ((calls es1).take m)).apply mu k = some x) ∧ S' ≠ (S0.run ((calls es1).take m)).apply mu)) := by
  have hmul1 : page * (0 + encCallCount xs) ≤ page * (encCallCount xs + (calls es1).length) := Nat.mul_le_mul_left _ (by omega)
  obtain ⟨_, S, hS, hg⟩ := encLife_good (h8 := h8) h32 hk hl (K := 0) encGood_fresh hs (by omega) (by omega)
  rw [Nat.zero_add] at hg
  obtain ⟨hsh, _, hd1, hi1, hi2⟩ := encGood_session h32 hk hg hrand hopen hrun1 hfit hroom hctr
  obtain ⟨b, dup, rest, m, S', hbuf, hrun, hm, hg1, hg2, hix, hph, hnr, hcase⟩ :=
    grow_fail (E := encEnv C page h8 False) hd1 ⟨hroom, by simpa [encEnv, aeadPos, counterMax] using hctr⟩ ho hgrow hfail
  obtain ⟨hcb, hix3⟩ := dead_run es2 (.inl hfail) (by rw [hph]; exact not_clrOpen hd1.book hrun) hclr hrun2
  have hdisk : s3.disk = s2.disk := by unfold disk; rw [hcb]
  have hnr1 := not_removed hd1.book hbuf
  have hnext : S.run ((calls es1).take (m + 1)) = (S.run ((calls es1).take m)).apply b.mutation := by
    rw [List.take_add_one, hm]
    simp [Store.run]
  have hgd1 : GoodDir (encEnv C page h8 False) (encCallCount xs + (calls es1).length) s1.dir (S.run ((calls es1).take m)) := by
    intro i hi
    have : i = s1.idx := hi _ (by simp [dir, hnr1])
    rw [this]
    exact hg1
  have hgd3 : GoodDir (encEnv C page h8 False) (encCallCount xs + (calls es1).length) s3.dir S' := by
    intro i hi
    have : i = s3.idx := hi _ (by simp [dir, hcb, hnr])
    rw [this, hix3, hix]
    show GoodFile _ _ _ s3.disk _
    rw [hdisk]
    exact hg2
  refine ⟨S, m, b.mutation, S', hsh, hm, fun half rand' => openEnc_good hk (encGood_left hgd1 hi1 hi2 half) rand',
    fun half rand' => openEnc_good hk (encGood_left hgd3 (by rw [hix3, hix]; exact hi1) (by rw [hix3, hix]; exact hi2) half) rand', ?_⟩
  rcases hcase with ⟨_, h⟩ | ⟨_, h1, k, x, h2, h3⟩
  · exact .inl h
  · rw [hnext] at h1 h2
    exact .inr ⟨h1, fun he => by rw [he, h2] at h3; cases h3⟩

/-- The hypotheses of `C96_partial` and `C96_adds` are met, for each of the system calls: `a` is saved, the put of `b` needs
a longer file and cannot have it, `c` is put afterwards.  The file keeps `a`. -/
theorem growAdd_meets (p : GrowCall) : ∃ s0 s1 s2 s3 rs1 rs2 es1, openAt plain () 64 [] = some s0 ∧ s0.Shows Store.empty ∧
    es1 = fullPut "a" 6 (List.replicate 44 7) ++ [.put "b" 6 [1], .api (), .api (), .io idOrder, .io idOrder] ∧
    run plain s0 es1 = some (s1, rs1) ∧ growStep plain s1 idOrder 0 p = some s2 ∧ s2.lp.io = .unwinding ∧
    run plain s2 (.io idOrder :: [.put "c" 6 [2], .api (), .api ()]) = some (s3, rs2) ∧ rs1 = [.ok (), .ok ()] ∧ rs2 = [.err ioErr] ∧
    (∀ e ∈ es1, e.Adds) ∧ (putKeys es1).Nodup ∧ fileRecords crcCodec s3.disk = some [some ⟨"a", 6, List.replicate 44 7⟩] := by
  have h : ∀ p, (match openAt plain () 64 [] with
    | none => false
    | some s0 => match run plain s0 (fullPut "a" 6 (List.replicate 44 7) ++ [.put "b" 6 [1], .api (), .api (), .io idOrder, .io idOrder]) with
      | none => false
      | some (s1, rs1) => match growStep plain s1 idOrder 0 p with
        | none => false
        | some s2 => passes (run plain s2 (.io idOrder :: [.put "c" 6 [2], .api (), .api ()])) fun s3 rs2 => decide (s0.kv = [] ∧ s2.lp.io = .unwinding ∧
          rs1 = [.ok (), .ok ()] ∧ rs2 = [.err ioErr] ∧
          fileRecords crcCodec s3.disk = some [some ⟨"a", 6, List.replicate 44 7⟩])) = true := by
    intro p; cases p <;> decide +kernel
  have h := h p
  split at h
  · cases h
  rename_i s0 hs0
  split at h
  · cases h
  rename_i s1 rs1 hr1
  split at h
  · cases h
  rename_i s2 hr2
  obtain ⟨s3, rs2, h1, h2⟩ := exists_of_passes h
  simp only [decide_eq_true_eq] at h2
  obtain ⟨g1, g2, g3, g4, g5⟩ := h2
  refine ⟨s0, s1, s2, s3, rs1, rs2, _, hs0, (shows_open hs0).2 (by rw [g1]; rfl), rfl, hr1, hr2, g2, h1, g3, g4, ?_, by decide, g5⟩
  intro e he
  simp [fullPut] at he
  rcases he with rfl | rfl | rfl | rfl | rfl | rfl | rfl | rfl <;> trivial

/-- **C96 is false** when a value is replaced: the compaction empties the file first, writes what fits, and then one of
the system calls of the growth fails.  Two values are put, both are on disk; a put of a longer value for `b` returns `Ok`;
afterwards the file does not hold `a` any more, which nobody touched.  Any of the system calls will do. -/
theorem C96_refuted (p : GrowCall) : ∃ s1 s2 rs1,
    fresh64 (fullPut "a" 6 [1] ++ fullPut "b" 6 [2] ++ [.put "b" 6 (List.replicate 32 7), .api (), .api (), .io id, .io id]) = some (s1, rs1) ∧
    rs1 = [.ok (), .ok (), .ok ()] ∧ growStep plain s1 id 0 p = some s2 ∧ s2.lp.io = .unwinding ∧
    FileShows s1.disk (Store.empty.run [.put "a" ⟨6, [1]⟩, .put "b" ⟨6, [2]⟩]) ∧
    FileShows s2.disk (Store.empty.run [.put "b" ⟨6, List.replicate 32 7⟩]) := by
  have h : ∀ p, (passes (fresh64 (fullPut "a" 6 [1] ++ fullPut "b" 6 [2] ++ [.put "b" 6 (List.replicate 32 7), .api (), .api (), .io id, .io id])) fun s1 rs1 =>
      match growStep plain s1 id 0 p with
      | none => false
      | some s2 => decide (rs1 = [.ok (), .ok (), .ok ()] ∧ s2.lp.io = .unwinding ∧
        fileRecords crcCodec s1.disk = some [some ⟨"a", 6, [1]⟩, some ⟨"b", 6, [2]⟩] ∧
        fileRecords crcCodec s2.disk = some [some ⟨"b", 6, List.replicate 32 7⟩])) = true := by
    intro p; cases p <;> decide +kernel
  obtain ⟨s1, rs1, h1, h2⟩ := exists_of_passes (h p)
  split at h2
  · cases h2
  rename_i s2 hs2
  simp only [decide_eq_true_eq] at h2
  obtain ⟨g1, g2, g3, g4⟩ := h2
  refine ⟨s1, s2, rs1, h1, g1, hs2, g2, ?_, ?_⟩
  · have hr : AtRest (WState.mk s1.disk s1.disk.length 64 2 false 8 none []) [some ⟨"a", 6, [1]⟩, some ⟨"b", 6, [2]⟩] :=
      ⟨rfl, g3, rfl, rfl, rfl⟩
    simpa [mutations, Buffer.mutation, Buffer.isDeleting, deletedToken, Buffer.entry] using hr.fileShows
  · have hr : AtRest (WState.mk s2.disk s2.disk.length 64 1 false 8 none []) [some ⟨"b", 6, List.replicate 32 7⟩] :=
      ⟨rfl, g4, rfl, rfl, rfl⟩
    simpa [mutations, Buffer.mutation, Buffer.isDeleting, deletedToken, Buffer.entry] using hr.fileShows

/-- The hypotheses of `C96_encrypted_partial` are met: `a` is saved, the put of `b` needs a longer file, and a system
call of the growth fails. -/
example (p : GrowCall) : ∃ s0 s1 s2 rs1 es1, openEnc toy 64 testKey nonce1 EncDir.fresh = some s0 ∧
    es1 = encPut (testKeyBytes, nonce1) "a" 1 (zeros 20) ++ [.put "b" 1 (zeros 20), .api (testKeyBytes, nonce1), .api (testKeyBytes, nonce1), .io idOrder, .io idOrder] ∧
    run (encrypted toy) s0 es1 = some (s1, rs1) ∧ growStep (encrypted toy) s1 idOrder 0 p = some s2 ∧ s2.lp.io = .unwinding ∧
    rs1 = [.ok (), .ok ()] := by
  have h : ∀ p, (match openEnc toy 64 testKey nonce1 EncDir.fresh with
    | none => false
    | some s0 => passes (run (encrypted toy) s0 (encPut (testKeyBytes, nonce1) "a" 1 (zeros 20) ++
        [.put "b" 1 (zeros 20), .api (testKeyBytes, nonce1), .api (testKeyBytes, nonce1), .io idOrder, .io idOrder])) fun s1 rs1 =>
      match growStep (encrypted toy) s1 idOrder 0 p with
      | none => false
      | some s2 => decide (s2.lp.io = .unwinding ∧ rs1 = [.ok (), .ok ()])) = true := by
    intro p; cases p <;> decide +kernel
  have h := h p
  split at h
  · cases h
  rename_i s0 hs0
  obtain ⟨s1, rs1, h1, h2⟩ := exists_of_passes h
  split at h2
  · cases h2
  rename_i s2 hs2
  simp only [decide_eq_true_eq] at h2
  exact ⟨s0, s1, s2, rs1, _, hs0, rfl, h1, hs2, h2.1, h2.2⟩

end Mmkv
