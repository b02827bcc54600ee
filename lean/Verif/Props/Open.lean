import Verif.Model.OpenSteps
import Verif.Props.Keys
/-!
# C61, C62: opening (and clearing) a directory that does not get to its end
-/

namespace Mmkv
open Spec Inst

/-! ### The states agree with the model of a whole `new` -/

theorem configStates_data {page : Nat} {d d' : DirDisk} (h : d' ∈ configStates page d) :
    d'.nonce = d.nonce ∧ configNew page (d'.data.getD []) = configNew page (d.data.getD []) := by
  have hz : configNew page (zeros page) = zeros page := by
    unfold configNew
    split
    · rfl
    · rfl
  unfold configStates at h
  rcases List.mem_cons.1 h with rfl | h
  · exact ⟨rfl, rfl⟩
  rcases List.mem_append.1 h with h | h
  · split at h
    · rename_i hn
      simp only [List.mem_singleton] at h
      subst h
      simp [hn]
    · cases h
  · split at h
    · rename_i hn
      simp only [List.mem_singleton] at h
      subst h
      refine ⟨rfl, ?_⟩
      simp only [Option.getD_some, hz]
      simp [configNew, hn]
    · cases h

/-- **C61**, the states are those of `new`: a `new` that gets to its end leaves the data file and the nonce file as the model of
whole sessions (C23, C25) says: an existing nonce of the right length is kept, anything else is replaced. -/
theorem C61_uninterrupted {page : Nat} {key : String} {k rand : Bytes} {d : DirDisk} (hk : decodeKey key = some k) :
    (encOpenStates page key true rand d).getLast? =
      some ⟨some (configNew page (d.data.getD [])), some (initNonce d.nonce rand)⟩ := by
  have hcfg : (configStates page d).getLast? = some { d with data := some (configNew page (d.data.getD [])) } := by
    unfold configStates configNew
    cases hd : d.data with
    | none => simp [List.getLast?_cons]
    | some f =>
      by_cases hf : f.length = 0
      · simp [hf]
      · obtain ⟨data, nonce⟩ := d
        simp only at hd
        subst hd
        simp [hf]
  have hnew : ∀ d, (newNonceStates rand d).getLast? = some { d with nonce := some rand } := by
    intro d
    unfold newNonceStates
    rw [List.range_succ, List.map_append, List.getLast?_append]
    simp
  unfold encOpenStates
  rw [hk]
  simp only
  rw [List.getLast?_append, hcfg]
  unfold nonceStates initNonce
  simp only
  cases hn : d.nonce with
  | none => simp [hnew]
  | some n =>
    by_cases hl : n.length = nonceLen
    · simp [hl, ← hn]
    · simp [hl, List.getLast?_cons, hnew]

/-! ### C61 -/

/-- **C61**, without encryption (for any codec): a `new` killed at any point leaves a directory that opens exactly as it
would have without it. -/
theorem C61_killed_open {ι : Type} (codecs : ι → Codec) (i : ι) {page : Nat} {d d' : DirDisk} (h : d' ∈ openStates page d) :
    openAt codecs i page (d'.data.getD []) = openAt codecs i page (d.data.getD []) := by
  rw [← openAt_configNew codecs i page (d'.data.getD []), (configStates_data h).2, openAt_configNew]

theorem newNonceStates_nonce {rand : Bytes} (hr : rand.length = nonceLen) {d d' : DirDisk} (h : d' ∈ newNonceStates rand d) (r : Bytes) :
    d'.data = d.data ∧ (initNonce d'.nonce r = r ∨ initNonce d'.nonce r = rand) := by
  unfold newNonceStates at h
  obtain ⟨k, hk, rfl⟩ := List.mem_map.1 h
  rw [List.mem_range] at hk
  refine ⟨rfl, ?_⟩
  simp only [initNonce, List.length_take]
  split
  · right; exact List.take_of_length_le (by omega)
  · left; rfl

theorem encOpenStates_cut {page : Nat} {key : String} {rand : Bytes} (hr : rand.length = nonceLen) {d d' : DirDisk}
    (h : d' ∈ encOpenStates page key true rand d) (r : Bytes) :
    configNew page (d'.data.getD []) = configNew page (d.data.getD []) ∧
    (initNonce d'.nonce r = initNonce d.nonce r ∨ initNonce d'.nonce r = initNonce d.nonce rand) := by
  unfold encOpenStates at h
  rcases List.mem_append.1 h with h | h
  · obtain ⟨h1, h2⟩ := configStates_data h
    exact ⟨h2, .inl (by rw [h1])⟩
  split at h
  · cases h
  have hc : configNew page (configNew page (d.data.getD [])) = configNew page (d.data.getD []) := configNew_idem _ _
  unfold nonceStates at h
  simp only at h
  cases hn : d.nonce with
  | none =>
    simp only [hn] at h
    obtain ⟨h1, h2⟩ := newNonceStates_nonce hr h r
    exact ⟨by rw [h1]; exact hc, h2⟩
  | some n =>
    simp only [hn, Bool.true_and] at h
    split at h
    · cases h
    rename_i hl
    have hl : n.length ≠ nonceLen := by simpa using hl
    rcases List.mem_cons.1 h with rfl | h
    · exact ⟨hc, .inl (by simp [initNonce, hl])⟩
    · obtain ⟨h1, h2⟩ := newNonceStates_nonce hr h r
      refine ⟨by rw [h1]; exact hc, ?_⟩
      simpa [initNonce, hl] using h2

theorem cutOpens_eq {page : Nat} {d d' : DirDisk} {rands : List Bytes} (h : CutOpens page d rands d') (r : Bytes) :
    configNew page (d'.data.getD []) = configNew page (d.data.getD []) ∧
    ∃ r' ∈ r :: rands, initNonce d'.nonce r = initNonce d.nonce r' := by
  induction h with
  | none d => exact ⟨rfl, r, by simp, rfl⟩
  | @cut d d1 d2 key rand rands hr h1 _ ih =>
    obtain ⟨g1, r', hm, g2⟩ := ih
    obtain ⟨g3, g4⟩ := encOpenStates_cut hr h1 r'
    refine ⟨g1.trans g3, ?_⟩
    rcases g4 with g4 | g4
    · refine ⟨r', ?_, g2.trans g4⟩
      rcases List.mem_cons.1 hm with rfl | hm
      · simp
      · simp [hm]
    · exact ⟨rand, by simp, g2.trans g4⟩

/-- **C61**, with encryption: any number of calls of `new`, each killed (or failing) at any point, each with whatever key,
leave a directory that the next `new` opens exactly as it would have opened the original one, with the random bytes of one
of these calls. -/
theorem C61_killed_opens (C : Cipher) {page : Nat} {d d' : DirDisk} {rands : List Bytes} (h : CutOpens page d rands d')
    (key : String) (rand : Bytes) :
    ∃ r ∈ rand :: rands, openEnc C page key rand d'.enc = openEnc C page key r d.enc := by
  obtain ⟨g1, r, hm, g2⟩ := cutOpens_eq h rand
  refine ⟨r, hm, ?_⟩
  unfold openEnc encryptorInit
  simp only [DirDisk.enc, g2]
  cases decodeKey key with
  | none => rfl
  | some k =>
    simp only [Option.map_some]
    rw [← openAt_configNew (encrypted C) _ page (d'.data.getD []), g1, openAt_configNew]

/-- **C61** for a directory in use: with its nonce file in place, such calls change nothing at all. -/
theorem C61_data_kept (C : Cipher) {page : Nat} {d d' : DirDisk} {rands : List Bytes} (h : CutOpens page d rands d') {n : Bytes}
    (hn : d.nonce = some n) (hl : n.length = nonceLen) (key : String) (rand : Bytes) :
    openEnc C page key rand d'.enc = openEnc C page key rand d.enc := by
  obtain ⟨r, _, h1⟩ := C61_killed_opens C h key rand
  rw [h1]
  unfold openEnc encryptorInit
  simp [DirDisk.enc, hn, initNonce, hl]

/-- **C61** for a directory nobody has used, or whose data file is gone: after such calls a `new` with a proper key returns an
empty store. -/
theorem C61_no_data (C : Cipher) {page : Nat} (h8 : 8 ≤ page) {d d' : DirDisk} {rands : List Bytes} (h : CutOpens page d rands d')
    (hd : d.data.getD [] = []) {key : String} {k : Bytes} (hk : decodeKey key = some k) (rand : Bytes) :
    ∃ s, openEnc C page key rand d'.enc = some s ∧ s.Shows Store.empty := by
  obtain ⟨r, _, h1⟩ := C61_killed_opens C h key rand
  rw [h1, openEnc_eq hk]
  simp only [DirDisk.enc, hd]
  obtain ⟨s, hs, hsh, _⟩ := C22_fresh_empty (encrypted C) (k, initNonce d.nonce r) page h8
  exact ⟨s, hs, hsh⟩

/-- **C61** for `clear_data`: killed while it removes the files or opens the directory again (any number of times), it leaves
a directory that opens as before the removal, or opens empty. -/
theorem C61_killed_clear (C : Cipher) {page : Nat} (h8 : 8 ≤ page) {d d1 d' : DirDisk} {rands : List Bytes} (h1 : d1 ∈ removeStates d)
    (h : CutOpens page d1 rands d') {key : String} {k : Bytes} (hk : decodeKey key = some k) (rand : Bytes) :
    (∃ r ∈ rand :: rands, openEnc C page key rand d'.enc = openEnc C page key r d.enc) ∨
    ∃ s, openEnc C page key rand d'.enc = some s ∧ s.Shows Store.empty := by
  simp only [removeStates, List.mem_cons, List.not_mem_nil, or_false] at h1
  rcases h1 with rfl | rfl | rfl
  · exact .inl (C61_killed_opens C h key rand)
  · exact .inr (C61_no_data C h8 h rfl hk rand)
  · exact .inr (C61_no_data C h8 h rfl hk rand)

/-- The hypotheses of C61 are met: on the directory `⟨none, none⟩` a first `new` is killed after three bytes of the nonce,
a second, with a malformed key, panics, a third is killed after writing its nonce. -/
example : CutOpens 80 ⟨none, none⟩ [nonce1, nonce1, nonce1.reverse] ⟨some (zeros 80), some nonce1.reverse⟩ := by
  refine .cut (key := testKey) (d1 := ⟨some (zeros 80), some [1, 2, 3]⟩) (by decide) (by decide +kernel) ?_
  refine .cut (key := "no key") (d1 := ⟨some (zeros 80), some [1, 2, 3]⟩) (by decide) (by decide +kernel) ?_
  exact .cut (key := testKey) (by decide) (by decide +kernel) (.none _)

/-! ### C62 -/

/-- **C62 is false of this program**: reading the nonce file fails once (any I/O error), and `new` answers by deleting it
and making a new nonce.  For every cipher and every directory in use, if no record happens to authenticate under the
new nonce, this and every later `new` with the right key shows an empty store: everything is lost. -/
theorem C62_refuted (C : Cipher) {page : Nat} {key : String} {k n rand r : Bytes} {d : DirDisk} {s : Inst (Bytes × Bytes)} {S0 : Store}
    (hk : decodeKey key = some k) (hne : d.data.getD [] ≠ []) (hn : d.nonce = some n)
    (hright : openEnc C page key r d.enc = some s) (hS0 : s.Shows S0) (hr : rand.length = nonceLen)
    (hno : NoneAuthentic C k rand (d.data.getD [])) :
    Fault.left page rand d .readNonce ∈ encOpenStates page key false rand d ∧
    ∀ r', ∃ s', openEnc C page key r' (Fault.left page rand d .readNonce).enc = some s' ∧ s'.Shows Store.empty := by
  have hlen : (d.data.getD []).length ≠ 0 := by simpa using hne
  have hc : configNew page (d.data.getD []) = d.data.getD [] := by simp [configNew, hlen]
  constructor
  · unfold encOpenStates nonceStates newNonceStates
    rw [hk]
    simp only [hn, Bool.false_and, Bool.false_eq_true, if_false, List.mem_append, List.mem_cons, List.mem_map, List.mem_range]
    exact .inr (.inr ⟨rand.length, by omega, by simp [Fault.left]⟩)
  · intro r'
    have hnr : initNonce (some rand) r' = rand := by simp [initNonce, hr]
    obtain ⟨s', h1, h2, _⟩ := C25_wrong_key_or_nonce C (d := d.enc) (key' := key) (k' := k) (rand' := r') (nf' := some rand)
      hne hright hS0 hk (by rw [hnr]; exact hno)
    refine ⟨s', ?_, h2⟩
    simpa [Fault.left, DirDisk.enc, hc] using h1

/-- The hypotheses of `C62_refuted` are met by the directory `demoEnc` leaves after its first session. -/
example : ∃ (d : DirDisk) (s : Inst (Bytes × Bytes)), decodeKey testKey = some testKeyBytes ∧ d.data.getD [] ≠ [] ∧
    d.nonce = some nonce1 ∧ openEnc toy 80 testKey nonce1 d.enc = some s ∧ s.kv.length = 2 ∧
    NoneAuthentic toy testKeyBytes (nonce1.map (· + 1)) (d.data.getD []) := by
  have h : ((encLifeRun toy 80 EncDir.fresh (demoEnc.take 1)).map fun p =>
      ((openEnc toy 80 testKey nonce1 p.2).map fun s => decide (s.kv.length = 2),
        decide (p.2.file ≠ []), p.2.nonceFile,
        (cipherTexts p.2.file).map fun cts => (List.range cts.length).all fun n =>
          (toy.decrypt testKeyBytes (nonce1.map (· + 1)) n (cts.getD n [])).isNone)) =
      some (some true, true, some nonce1, some true) := by decide +kernel
  rw [Option.map_eq_some_iff] at h
  obtain ⟨p, hp, h⟩ := h
  simp only [Prod.mk.injEq] at h
  obtain ⟨h1, h2, h4, h3⟩ := h
  rw [Option.map_eq_some_iff] at h1
  obtain ⟨s, ho, h1⟩ := h1
  refine ⟨⟨some p.2.file, p.2.nonceFile⟩, s, decode_testKey, by simpa using h2, h4, ho, by simpa using h1, ?_⟩
  intro cts hc n ct hn
  simp only [Option.getD_some] at hc
  rw [hc] at h3
  simp only [Option.map_some, Option.some.injEq, List.all_eq_true, List.mem_range] at h3
  have := h3 n (List.getElem?_eq_some_iff.1 hn).1
  rw [List.getD_eq_getElem?_getD, hn] at this
  simpa using this

theorem live_ioRemoveFails {ι : Type} {s s' : Inst ι} (h : s.Live) (hs : s.ioRemoveFails = some s') : s'.Live := by
  unfold ioRemoveFails at hs
  split at hs
  · injection hs with hs; subst hs; exact h
  · cases hs

/-- **C62 is false of this program**, for `clear_data`: `fs::remove_file` fails, its error is dropped, `clear_data` returns
`Ok` and the store still shows the old data. -/
theorem C62_refuted_clear : ∃ s0 s1 s2 s3 rs1 rs2, openAt plain () 64 [] = some s0 ∧
    run plain s0 (fullPut "a" 6 [1] ++ [.clear, .api (), .api (), .api (), .io id, .io id]) = some (s1, rs1) ∧
    s1.ioRemoveFails = some s2 ∧ run plain s2 [.io id, .io id, .api (), .api ()] = some (s3, rs2) ∧
    rs1 ++ rs2 = [.ok (), .ok ()] ∧ s3.Shows (Store.empty.run [.put "a" ⟨6, [1]⟩]) := by
  have h : ((openAt plain () 64 []).bind fun s0 =>
      (run plain s0 (fullPut "a" 6 [1] ++ [.clear, .api (), .api (), .api (), .io id, .io id])).bind fun p =>
      p.1.ioRemoveFails.bind fun s2 => (run plain s2 [.io id, .io id, .api (), .api ()]).map fun q =>
      decide (p.2 ++ q.2 = [.ok (), .ok ()] ∧ q.1.poisoned = false ∧ q.1.valid = true ∧ q.1.kv = [("a", ⟨"a", 6, [1]⟩)])) = some true := by
    decide +kernel
  rw [Option.bind_eq_some_iff] at h
  obtain ⟨s0, h0, h⟩ := h
  rw [Option.bind_eq_some_iff] at h
  obtain ⟨⟨s1, rs1⟩, h1, h⟩ := h
  rw [Option.bind_eq_some_iff] at h
  obtain ⟨s2, h2, h⟩ := h
  rw [Option.map_eq_some_iff] at h
  obtain ⟨⟨s3, rs3⟩, h3, h⟩ := h
  simp only [decide_eq_true_eq] at h
  obtain ⟨g1, g2, g3, g4⟩ := h
  refine ⟨s0, s1, s2, s3, rs1, rs3, h0, h1, h2, h3, g1, (shows_iff g2 g3 ?_).2 ?_⟩
  · have hlive := live_run _ (live_open h0) h1
    exact live_run _ (live_ioRemoveFails hlive h2) h3
  · rw [g4]
    funext k
    by_cases hk : k = "a"
    · subst hk; simp [view, KvMap.get, Store.run, Store.apply, Buffer.entry]
    · simp [view, KvMap.get, Store.run, Store.apply, Store.empty, hk, Ne.symm hk]

/-- **C62**, the part that holds: any other system call of `new` that fails makes it panic and leaves a directory that the
next `new` opens exactly as it would have opened the original one (with the old or the new random bytes). -/
theorem C62_partial (C : Cipher) {page : Nat} {rand : Bytes} (hr : rand.length = nonceLen)
    (d : DirDisk) (f : Fault) (hf : f ≠ .readNonce) (key' : String) (r : Bytes) :
    ∃ r' ∈ [r, rand], openEnc C page key' r (f.left page rand d).enc = openEnc C page key' r' d.enc := by
  -- the nonce in use afterwards, and the data file
  suffices h : configNew page ((f.left page rand d).data.getD []) = configNew page (d.data.getD []) ∧
      ∃ r' ∈ [r, rand], initNonce (f.left page rand d).nonce r = initNonce d.nonce r' by
    obtain ⟨g1, r', hm, g2⟩ := h
    refine ⟨r', hm, ?_⟩
    unfold openEnc encryptorInit
    simp only [DirDisk.enc, g2]
    cases decodeKey key' with
    | none => rfl
    | some k' =>
      simp only [Option.map_some]
      rw [← openAt_configNew (encrypted C) _ page ((f.left page rand d).data.getD []), g1, openAt_configNew]
  have hc : configNew page (configNew page (d.data.getD [])) = configNew page (d.data.getD []) := configNew_idem _ _
  cases f with
  | readNonce => exact absurd rfl hf
  | openData => exact ⟨rfl, r, by simp, rfl⟩
  | setLen => exact ⟨rfl, r, by simp, rfl⟩
  | syncData => exact ⟨hc, r, by simp, rfl⟩
  | openNonce =>
    simp only [Fault.left]
    cases hn : d.nonce with
    | none => exact ⟨hc, r, by simp, rfl⟩
    | some n =>
      simp only
      split
      · exact ⟨hc, r, by simp, rfl⟩
      · rename_i hl
        exact ⟨hc, r, by simp, by simp [initNonce, hl]⟩
  | writeNonce j =>
    have hw : initNonce (some (rand.take j)) r = r ∨ initNonce (some (rand.take j)) r = rand := by
      simp only [initNonce, List.length_take]
      split
      · right; exact List.take_of_length_le (by omega)
      · left; rfl
    simp only [Fault.left]
    cases hn : d.nonce with
    | none =>
      refine ⟨hc, ?_⟩
      rcases hw with hw | hw
      · exact ⟨r, by simp, hw⟩
      · exact ⟨rand, by simp, hw⟩
    | some n =>
      simp only
      split
      · exact ⟨hc, r, by simp, rfl⟩
      · rename_i hl
        refine ⟨hc, ?_⟩
        rcases hw with hw | hw
        · exact ⟨r, by simp, by rw [hw]; simp [initNonce, hl]⟩
        · exact ⟨rand, by simp, by rw [hw]; simp [initNonce, hl]⟩
  | mmap =>
    refine ⟨hc, rand, by simp, ?_⟩
    have : (initNonce d.nonce rand).length = nonceLen := initNonce_length hr
    show initNonce (some (initNonce d.nonce rand)) r = _
    rw [initNonce.eq_def]
    simp only [this, if_true]

end Mmkv
