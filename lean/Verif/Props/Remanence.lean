import Verif.Lemmas.Remains
import Verif.Props.Amplify
import Verif.Props.Clear
import Verif.Props.Format
/-!
# C93: are removed values gone from the disk?

Once a key has been deleted or overwritten and the store has been closed, is the old value gone from the data file?  And after `clear_data`?
-/

namespace Mmkv
open Spec Inst Spec.Format
variable {ι : Type}

/-- The value of a message is part of its bytes. -/
theorem mergeAll_value : ∀ {fs : List (Nat × Payload)} {bs : Bytes} {m kv : Kv}, Message bs fs → mergeAll m fs = some kv →
    kv.value = m.value ∨ kv.value <:+: bs := by
  intro fs
  induction fs with
  | nil => intro bs m kv _ h; simp only [mergeAll, Option.some.injEq] at h; subst h; exact .inl rfl
  | cons f fs ih =>
    intro bs m kv hm h
    cases hm with
    | @cons fb rest n p _ hf hr =>
      simp only [mergeAll, Option.bind_eq_some_iff] at h
      obtain ⟨m', h1, h2⟩ := h
      rcases ih hr h2 with h3 | h3
      · unfold merge at h1
        split at h1
        · simp only [Option.map_eq_some_iff] at h1
          obtain ⟨_, _, rfl⟩ := h1
          exact .inl h3
        · injection h1 with h1; subst h1; exact .inl h3
        · rename_i p' heq
          injection h1 with h1; subst h1
          injection heq with h4 h5
          subst h4; subst h5
          right
          cases hf with
          | @len t l p'' _ hn ht hl => exact ⟨t ++ l, rest, by rw [h3]; simp⟩
        · injection h1 with h1; subst h1; exact .inl h3
      · exact .inr (h3.trans ⟨fb, [], by simp⟩)

/-- What a data file of the format says is, byte for byte, in it. -/
theorem value_in_file {file : Bytes} {kvs : List Kv} (h : File file kvs) : ∀ kv ∈ kvs, kv.value <:+: file := by
  obtain ⟨hdr, content, unused, rfl, _, hnum, hr⟩ := h
  intro kv hk
  suffices h : kv.value <:+: content from h.trans ⟨hdr, unused, by simp⟩
  clear hnum
  induction hr with
  | nil => cases hk
  | @cons r rest kv' kvs' hrec _ ih =>
    rcases List.mem_cons.1 hk with rfl | hk
    · obtain ⟨len, msg, sum, rfl, _, _, ⟨fs, hf1, hf2⟩, _⟩ := hrec
      have : kv.value <:+: msg := by
        rcases mergeAll_value hf1 hf2 with h | h
        · rw [h]; exact List.nil_infix
        · exact h
      exact this.trans ⟨len, [sum] ++ rest, by simp⟩
    · exact (ih hk).trans ⟨r, [], by simp⟩

/-- **C93 is false** of `delete` and overwriting, and not by accident: take any life of a directory and a session, under any schedule, without
`clear_data`, whose records still fit the file.  All calls return `Ok` and a new open shows exactly what they leave; yet the closed file
holds the record, and so the bytes, of *every* value the session found at the start and of *every* value ever put in it, whatever was
deleted or overwritten afterwards. -/
theorem C93_refuted {page : Nat} (h8 : 8 ≤ page) (h32 : page < 2 ^ 32) {xs : List (Session Unit)} {rss : List (List (Out Unit))} {d : Dir Unit}
    (hl : Life plain page Dir.fresh xs rss d) (hfits : ∀ x ∈ xs, ∀ e ∈ x.evs, e.Fits page) {s0 s : Inst Unit} {S : Store}
    {es : List (Ev Unit)} {rs : List (Out Unit)} (hopen : openAt plain () page d.file = some s0) (h0 : s0.Shows S)
    (hrun : run plain s0 es = some (s, rs)) (hclear : ∀ e ∈ es, e ≠ .clear) (hfit : ∀ e ∈ es, e.Fits page)
    (hroom : page * (callCount xs + (calls es).length) + 8 < 2 ^ 64)
    (hspace : 8 + header d.file + ((calls es).map callSize).sum ≤ if d.file.length = 0 then page else d.file.length)
    (hclosed : s.closedOk) :
    (∀ r ∈ rs, r = .ok ()) ∧ (∃ t, openAt plain () page s.disk = some t ∧ t.Shows (S.run (calls es))) ∧
      ∃ kvs, File s.disk kvs ∧ ∀ k e, (S k = some e ∨ .put k e ∈ calls es) → ⟨k, e.token, e.bytes⟩ ∈ kvs ∧ e.bytes <:+: s.disk := by
  have hmul : page * callCount xs ≤ page * (callCount xs + (calls es).length) := Nat.mul_le_mul_left _ (by omega)
  obtain ⟨_, S', hS', hg⟩ := life_survives (E := plainEnv page h8 False) (K := 0) hl (goodDir_fresh _ 0)
    (fun x hx e he => (hfits x hx e he).ok h32) (by rw [Nat.zero_add]; exact plain_room (by omega))
  have hg := hg () (fun _ _ => rfl)
  obtain ⟨s1, hs1, hd1, _⟩ := dinv_open hg
  have hs1' : openAt plain () page d.file = some s1 := hs1
  rw [hopen] at hs1'
  injection hs1' with hs1'
  subst hs1'
  have hv : view s0.kv = S' := by simpa [Store.run] using hd1.kvView
  have hSS : S' = S := by rw [← hv]; exact (shows_open hopen).1 h0
  subst hSS
  rw [callSize_eq page h8 False] at hspace
  obtain ⟨hr, content, items, hh, hf, hn, hm1, hm2, hm3⟩ := remains (E := plainEnv page h8 False) (i := ()) hg hopen hrun
    (fun e he => (hfit e he).ok h32) hclear (by rw [Nat.zero_add]; exact plain_room hroom) hspace hclosed
  refine ⟨hr, ?_, ?_⟩
  · obtain ⟨t, ht, hsh⟩ := open_framed_any (codecs := plain) (i := ()) (page := page) hh hf
    rw [hm3] at hsh
    exact ⟨t, ht, hsh⟩
  · obtain ⟨kvs, hk, rfl⟩ := framed_records' hf hn
    have hfile : File s.disk kvs := by
      obtain ⟨hb, tail, hd⟩ := hh
      rw [hd]
      refine ⟨_, _, tail, List.append_assoc .., by simp, ?_, hk⟩
      rw [num_eq_beVal, beVal_beBytes _ _ (by omega)]
    refine ⟨kvs, hfile, ?_⟩
    intro k e hke
    have hmem : some (⟨k, e.token, e.bytes⟩ : Buffer) ∈ kvs.map fun kv => some (ofKv kv) := hke.elim (hm1 k e) (hm2 k e)
    obtain ⟨kv, hkv, heq⟩ := List.mem_map.1 hmem
    have : kv = ⟨k, e.token, e.bytes⟩ := by
      injection heq with heq
      obtain ⟨a, b, c⟩ := kv
      simp only [ofKv, Buffer.mk.injEq] at heq
      obtain ⟨rfl, rfl, rfl⟩ := heq
      rfl
    subst this
    exact ⟨hkv, value_in_file hfile _ hkv⟩

/-- A secret is put, read back and deleted, and the store closed. -/
def secretEvs : List (Ev Unit) :=
  fullPut "pin" 1 [52, 55, 49, 49] ++ [.delete "pin", .api (), .api (), .drop, .io id, .io id, .io id, .io id, .io id]

/-- The hypotheses can be met: the only key is deleted, a new open shows nothing, and the four digits are in the file. -/
example : ∃ s0 s rs, Life plain 64 Dir.fresh [] [] Dir.fresh ∧ openAt plain () 64 (Dir.fresh : Dir Unit).file = some s0 ∧ s0.Shows Store.empty ∧
    run plain s0 secretEvs = some (s, rs) ∧ (∀ e ∈ secretEvs, e ≠ .clear) ∧ (∀ e ∈ secretEvs, e.Fits 64) ∧
    8 + header (Dir.fresh : Dir Unit).file + ((calls secretEvs).map callSize).sum ≤ 64 ∧ s.closedOk ∧ .put "pin" ⟨1, [52, 55, 49, 49]⟩ ∈ calls secretEvs ∧
    (Store.empty.run (calls secretEvs)) "pin" = none := by
  have h : (match openAt plain () 64 [] with
      | none => false
      | some s => match run plain s secretEvs with
        | some (s', _) => decide (s'.phase = .closed ∧ s'.lp.io = .exited)
        | none => false) = true := by decide +kernel
  split at h
  · cases h
  rename_i s0 hs0
  split at h
  · rename_i s rs hr
    refine ⟨s0, s, rs, .nil _, hs0, (openAt_nil_shows hs0).1, hr, ?_, ?_, by decide +kernel, by simpa [closedOk] using h, by decide,
      by decide⟩
    · intro e he
      simp only [secretEvs, fullPut, List.cons_append, List.nil_append, List.mem_cons, List.not_mem_nil, or_false] at he
      rcases he with rfl | rfl | rfl | rfl | rfl | rfl | rfl | rfl | rfl | rfl | rfl | rfl | rfl | rfl | rfl | rfl <;> simp
    · intro e he
      simp only [secretEvs, fullPut, List.cons_append, List.nil_append, List.mem_cons, List.not_mem_nil, or_false] at he
      rcases he with rfl | rfl | rfl | rfl | rfl | rfl | rfl | rfl | rfl | rfl | rfl | rfl | rfl | rfl | rfl | rfl <;>
        first | trivial | (show recordSize _ _ _ ≤ _; decide +kernel) | exact fun l => List.reverse_perm l | exact fun l => List.Perm.refl l
  · cases h

/-- **C93 is false** with encryption too, for whoever has the key (a key handed over, or found, later): after a session as in
`C93_refuted`, the records of every value found at the start or put since are in the closed file and can be decrypted, one after the other,
under the key and the nonce of the nonce file. -/
theorem C93_refuted_encrypted (C : Cipher) {page : Nat} (h8 : 8 ≤ page) (h32 : page < 2 ^ 32) {key : String} {k : Bytes}
    (hk : decodeKey key = some k) {xs : List EncSession} {rss : List (List (Out Unit))} {d : EncDir}
    (hl : EncLife C page EncDir.fresh xs rss d) (hs : SameKey key k page xs) {rand : Bytes} {s0 s : Inst (Bytes × Bytes)}
    {es : List (Ev (Bytes × Bytes))} {rs : List (Out Unit)} {S : Store} (hopen : openEnc C page key rand d = some s0)
    (h0 : s0.Shows S) (hrun : run (encrypted C) s0 es = some (s, rs)) (hclear : ∀ e ∈ es, e ≠ .clear) (hfit : ∀ e ∈ es, e.EncFits k page)
    (hroom : page * (encCallCount xs + (calls es).length) + 8 < 2 ^ 64) (hctr : encCallCount xs + (calls es).length < 2 ^ 32 - 1)
    (hspace : 8 + header d.file + ((calls es).map encCallSize).sum ≤ if d.file.length = 0 then page else d.file.length)
    (hclosed : s.closedOk) :
    (∀ r ∈ rs, r = .ok ()) ∧ ∃ kvs, SealedFile (openSealed C k (initNonce d.nonceFile rand)) s.disk kvs ∧
      contents kvs = S.run (calls es) ∧ ∀ k e, (S k = some e ∨ .put k e ∈ calls es) → ⟨k, e.token, e.bytes⟩ ∈ kvs := by
  obtain ⟨ys, g', hl', hg', hc, hf, _⟩ := life_of_encLife hk hl hs (g := Dir.fresh) ⟨rfl, by simp [Dir.fresh]⟩
  have hcc := callCount_eq hc
  have hmul : page * encCallCount xs ≤ page * (encCallCount xs + (calls es).length) := Nat.mul_le_mul_left _ (by omega)
  obtain ⟨hr, S', hS', hg⟩ := life_survives (E := encEnv C page h8 False) (K := 0) hl' (goodDir_fresh _ 0)
    (fun y hy e he => (hf y hy e he).ok h32) (by
      rw [Nat.zero_add, hcc]
      exact ⟨by show page * _ + 8 < _; omega, by show _ < _; simp only [counterMax]; omega⟩)
  have hi : ∀ j, g'.idx = some j → (k, initNonce d.nonceFile rand) = j := by
    intro j hj
    obtain ⟨j1, j2, j3⟩ := hg'.2 j hj
    rw [j3]
    simp only [initNonce, j2, if_true]
    rw [← j1]
  rw [openEnc_eq hk, ← hg'.1] at hopen
  have hg := hg _ hi
  obtain ⟨s1, hs1, hd1, _⟩ := dinv_open hg
  have hs1' : openAt (encrypted C) (k, initNonce d.nonceFile rand) page g'.file = some s1 := hs1
  rw [hopen] at hs1'
  injection hs1' with hs1'
  subst hs1'
  have hv : view s0.kv = S' := by simpa [Store.run] using hd1.kvView
  have hSS : S' = S := by rw [← hv]; exact (shows_open hopen).1 h0
  subst hSS
  rw [encCallSize_eq C page h8 False, ← hg'.1] at hspace
  obtain ⟨hr', content, items, hh, hfr, hn, hm1, hm2, hm3⟩ := remains (E := encEnv C page h8 False) hg hopen hrun
    (fun e he => (hfit e he).ok h32) hclear (by
      rw [Nat.zero_add, hcc]
      exact ⟨by show page * _ + 8 < _; omega, by show _ < _; simp only [counterMax]; omega⟩) hspace hclosed
  refine ⟨hr', ?_⟩
  obtain ⟨kvs, hkv, rfl⟩ := framed_sealed hfr hn
  obtain ⟨hb, tail, hd⟩ := hh
  refine ⟨kvs, ?_, ?_, ?_⟩
  · rw [hd]
    refine ⟨_, _, tail, List.append_assoc .., by simp, ?_, hkv⟩
    rw [num_eq_beVal, beVal_beBytes _ _ (by omega)]
  · rw [mutations_kvs] at hm3
    exact hm3
  · intro k e hke
    have hmem : some (⟨k, e.token, e.bytes⟩ : Buffer) ∈ kvs.map fun kv => some (ofKv kv) := hke.elim (hm1 k e) (hm2 k e)
    obtain ⟨kv, hkv, heq⟩ := List.mem_map.1 hmem
    have : kv = ⟨k, e.token, e.bytes⟩ := by
      injection heq with heq
      obtain ⟨a, b, c⟩ := kv
      simp only [ofKv, Buffer.mk.injEq] at heq
      obtain ⟨rfl, rfl, rfl⟩ := heq
      rfl
    subst this
    exact hkv

/-- The same with encryption. -/
def encSecretEvs : List (Ev (Bytes × Bytes)) :=
  encPut (testKeyBytes, nonce1) "pin" 1 [52, 55, 49, 49] ++ [.delete "pin", .api (testKeyBytes, nonce1), .api (testKeyBytes, nonce1), .drop,
    .io id, .io id, .io id, .io id, .io id]

/-- The hypotheses can be met. -/
example : ∃ s0 s rs, EncLife toy 64 EncDir.fresh [] [] EncDir.fresh ∧ openEnc toy 64 testKey nonce1 EncDir.fresh = some s0 ∧
    s0.Shows Store.empty ∧ run (encrypted toy) s0 encSecretEvs = some (s, rs) ∧
    8 + header EncDir.fresh.file + ((calls encSecretEvs).map encCallSize).sum ≤ 64 ∧ s.closedOk ∧
    .put "pin" ⟨1, [52, 55, 49, 49]⟩ ∈ calls encSecretEvs ∧ (Store.empty.run (calls encSecretEvs)) "pin" = none := by
  have h : (match openEnc toy 64 testKey nonce1 EncDir.fresh with
      | none => false
      | some s => match run (encrypted toy) s encSecretEvs with
        | some (s', _) => decide (s'.phase = .closed ∧ s'.lp.io = .exited)
        | none => false) = true := by decide +kernel
  obtain ⟨s1, _, _, h1, h2, _⟩ := encOverwrite_meets
  split at h
  · cases h
  rename_i s0 hs0
  rw [h1] at hs0
  injection hs0 with hs0
  subst hs0
  split at h
  · rename_i s rs hr
    exact ⟨s1, s, rs, .nil _, h1, h2, hr, by decide +kernel, by simpa [closedOk] using h, by decide, by decide⟩
  · cases h

/-! ## Compactions -/

/-- The file is at least as long as before, and what was at `a` and after is still there. -/
def Untouched (a : Nat) (s s' : WState) : Prop := s.file.length ≤ s'.file.length ∧ ∀ i, a ≤ i → i < s.file.length → s'.file[i]? = s.file[i]?

theorem Untouched.trans {a b : Nat} {s t u : WState} (h : Untouched a s t) (h' : Untouched b t u) (hab : a ≤ b) : Untouched b s u := by
  refine ⟨Nat.le_trans h.1 h'.1, fun i hi hl => ?_⟩
  rw [h'.2 i hi (Nat.lt_of_lt_of_le hl h.1), h.2 i (Nat.le_trans hab hi) hl]

theorem untouched_splice {file : Bytes} {off : Nat} {bs : Bytes} (h : off + bs.length ≤ file.length) {i : Nat} (hi : off + bs.length ≤ i) :
    (splice file off bs)[i]? = file[i]? := by
  unfold splice
  have : (file.take off ++ bs).length = off + bs.length := by simp; omega
  rw [List.getElem?_append_right (by omega), this, List.getElem?_drop]
  congr 1
  omega

/-- A store into the mapping. -/
theorem store_untouched {s s' : WState} {off : Nat} {bs : Bytes} (hmm : s.mmLen = s.file.length) (h : s.store off bs = .done s') :
    Untouched (off + bs.length) s s' ∧ s'.mmLen = s'.file.length ∧ s'.file.length = s.file.length := by
  unfold WState.store at h
  split at h
  · rename_i hle
    injection h with h; subst h
    have hl : (splice s.file off bs).length = s.file.length := splice_length _ _ _ (by omega)
    exact ⟨⟨by show _ ≤ (splice s.file off bs).length; omega, fun i hi _ => untouched_splice (by omega) hi⟩, by show s.mmLen = (splice s.file off bs).length; omega, hl⟩
  · cases h

/-- An append: the file holds the new content, and is as it was after it. -/
theorem append_untouched {s s' : WState} {content bytes : Bytes} (hmm : s.mmLen = s.file.length) (hh : Holds s.file content)
    (h : s.append bytes = .done s') (hlen : s'.file.length < 2 ^ 64) :
    Holds s'.file (content ++ bytes) ∧ s'.mmLen = s'.file.length ∧ Untouched (8 + (content ++ bytes).length) s s' := by
  have husz : s.usizeBytes = 8 := by
    unfold WState.append WState.writeOffset at h
    by_cases hu : s.usizeBytes = 8
    · exact hu
    · exfalso
      split at h
      · cases h
      · rename_i hx
        split at hx
        · cases hx
        · simp [WState.lenOffset, hu] at hx
  have hl8 := hh.len
  by_cases hfit : content.length + 8 + bytes.length ≤ s.file.length
  · rw [append_done husz hmm hh bytes hfit] at h
    injection h with h
    subst h
    simp only at hlen
    have hal : (appendFile s.file content bytes).length = s.file.length := by
      unfold appendFile
      have h1 : (splice s.file 0 (beBytes 8 (bytes.length + content.length))).length = s.file.length := splice_length _ _ _ (by simp; omega)
      rw [splice_length _ _ _ (by rw [h1]; exact hfit), h1]
    rw [hal] at hlen
    obtain ⟨h1, h2⟩ := holds_append hh bytes hfit (by omega)
    refine ⟨h1, by simp [hmm, h2], by simp [h2], fun i hi hil => ?_⟩
    simp only [List.length_append] at hi
    show (appendFile s.file content bytes)[i]? = _
    unfold appendFile
    have h3 : (splice s.file 0 (beBytes 8 (bytes.length + content.length))).length = s.file.length := splice_length _ _ _ (by simp; omega)
    rw [untouched_splice (by rw [h3]; exact hfit) (by omega), untouched_splice (by simp; omega) (by simp; omega)]
  · exfalso
    unfold WState.append at h
    rw [writeOffset_eq husz hmm hh] at h
    obtain ⟨y, h1, h2⟩ := andThen_done_iff h
    have hm1 : y.mmLen = s.mmLen := by
      unfold WState.storeLen WState.store at h1
      split at h1
      · cases h1
      split at h1
      · injection h1 with h1; subst h1; rfl
      · cases h1
    unfold WState.store at h2
    split at h2
    · omega
    · cases h2

theorem expand_untouched {s s' : WState} (h : s.expand = .done s') : Untouched 0 s s' ∧ s'.mmLen = s'.file.length ∧
    (∀ content, Holds s.file content → Holds s'.file content) := by
  unfold WState.expand at h
  simp only [] at h
  split at h
  · injection h with h; subst h
    refine ⟨⟨by simp, fun i _ hi => ?_⟩, by simp [zeros], fun content hc => holds_expand hc _⟩
    show (s.file ++ zeros s.page)[i]? = _
    rw [List.getElem?_append_left hi]
  · cases h

theorem trimLoop_untouched {c : Codec} (maxLen : Nat) : ∀ (bs : List Buffer) {s s' : WState} {content : Bytes}, s.mmLen = s.file.length →
    Holds s.file content → WState.trimLoop c maxLen bs s = .done s' → s'.file.length < 2 ^ 64 →
    ∃ content', Holds s'.file content' ∧ content.length ≤ content'.length ∧ Untouched (8 + content'.length) s s'
  | [], s, s', content, hmm, hh, h, _ => by
    simp only [WState.trimLoop, Run.done.injEq] at h
    subst h
    exact ⟨content, hh, Nat.le_refl _, Nat.le_refl _, fun _ _ _ => rfl⟩
  | b :: rest, s, s', content, hmm, hh, h, hlen => by
    unfold WState.trimLoop at h
    split at h
    · cases h
    rename_i data hd
    split at h
    · cases h
    obtain ⟨s3, h1, h2⟩ := andThen_done_iff h
    obtain ⟨s2, h3, h4⟩ := andThen_done_iff h1
    obtain ⟨s1, h5, h6⟩ := andThen_done_iff h3
    injection h4 with h4; subst h4
    have e1 : Untouched 0 s s1 ∧ s1.mmLen = s1.file.length ∧ Holds s1.file content := by
      split at h5
      · obtain ⟨u, m, k⟩ := expand_untouched h5; exact ⟨u, m, k _ hh⟩
      · injection h5 with h5; subst h5; exact ⟨⟨Nat.le_refl _, fun _ _ _ => rfl⟩, hmm, hh⟩
    obtain ⟨u1, m1, k1⟩ := e1
    -- the length after the append is at most the final one
    have hgrow : s2.file.length ≤ s'.file.length ∧ s2.mmLen = s2.file.length := by
      have h7 := grown_append m1 data
      rw [h6] at h7
      have h8 := h7.mm
      obtain ⟨n, _, hn⟩ := grown_trimLoop (c := c) maxLen rest { s2 with position := s2.position + 1 } h8
      rw [h2] at hn
      have := hn.len
      simp only [Run.state] at this h8
      exact ⟨by rw [this]; exact Nat.le_add_right _ _, h8⟩
    obtain ⟨k2, m2, u2⟩ := append_untouched m1 k1 h6 (by omega)
    obtain ⟨content', k3, l3, u3⟩ := trimLoop_untouched maxLen rest (s := { s2 with position := s2.position + 1 }) m2 k2 h2 hlen
    simp only [List.length_append] at l3 u2
    refine ⟨content', k3, by omega, ?_⟩
    exact (u1.trans u2 (by omega)).trans u3 (by omega)

/-- **C93**, compactions: no write of the background thread, of whatever kind and with whatever codec, touches the file behind the end
of the records it leaves.  So a compaction, which makes the records shorter, leaves in the file what was there before. -/
theorem C93_refuted_tail {c : Codec} {order : Order} {b : Buffer} {dup : Bool} {s s' : WState} (hmm : s.mmLen = s.file.length)
    (hok : header s.file + 8 ≤ s.file.length) (h : WState.write c order b dup s = .done s') (hlen : s'.file.length < 2 ^ 64) :
    ∀ i, 8 + header s'.file ≤ i → i < s.file.length → s'.file[i]? = s.file[i]? := by
  have hgl : s.file.length ≤ s'.file.length := by
    obtain ⟨n, hn⟩ := grown_write (c := c) order b dup hmm
    rw [h] at hn
    have := hn.len
    simp only [Run.state] at this
    rw [this]; exact Nat.le_add_right _ _
  have hh : Holds s.file ((s.file.drop 8).take (header s.file)) := by
    have := Holds.of_header (file := s.file) (by omega) hok (by unfold header at hok; omega)
    rw [List.drop_take] at this
    simpa [header] using this
  generalize hcc : (s.file.drop 8).take (header s.file) = content at hh
  clear hcc
  suffices hs : ∃ content', Holds s'.file content' ∧ Untouched (8 + content'.length) s s' by
    obtain ⟨content', h1, h2⟩ := hs
    intro i hi hl
    refine h2.2 i ?_ hl
    have := h1.header
    unfold header at hi
    omega
  unfold WState.write at h
  split at h
  · cases h
  rename_i data hd
  split at h
  · cases h
  rename_i off hoff
  simp only [] at h
  generalize hs0 : (if dup = true then { s with needTrim := true } else s) = s0 at h
  have hf0 : s0.file = s.file ∧ s0.mmLen = s.mmLen := by rw [← hs0]; split <;> exact ⟨rfl, rfl⟩
  have hu : ∀ {a : Nat} {t : WState}, Untouched a s0 t → Untouched a s t := by
    intro a t ht
    unfold Untouched at ht ⊢
    rw [hf0.1] at ht
    exact ht
  have hmm0 : s0.mmLen = s0.file.length := by rw [hf0.1, hf0.2]; exact hmm
  have hh0 : Holds s0.file content := by rw [hf0.1]; exact hh
  split at h
  · obtain ⟨y, h1, h2⟩ := andThen_done_iff h
    injection h2 with h2; subst h2
    obtain ⟨k1, _, u1⟩ := append_untouched hmm0 hh0 h1 hlen
    exact ⟨_, k1, hu u1⟩
  split at h
  · split at h
    · cases h
    rename_i items hi
    obtain ⟨y, h1, h2⟩ := andThen_done_iff h
    injection h2 with h2; subst h2
    obtain ⟨z, h3, h4⟩ := andThen_done_iff h1
    unfold WState.reset WState.storeLen at h3
    split at h3
    · cases h3
    have hz := store_untouched hmm0 h3
    have hzf : z.file = splice s0.file 0 (beBytes 8 0) := by
      unfold WState.store at h3
      split at h3
      · injection h3 with h3; subst h3; rfl
      · cases h3
    have hhz : Holds z.file [] := by rw [hzf]; exact (holds_reset hh0).1
    obtain ⟨content', k1, _, u1⟩ := trimLoop_untouched _ _ (s := { z with position := 0 }) hz.2.1 hhz h4 hlen
    refine ⟨content', k1, hu (hz.1.trans u1 (by simp))⟩
  · obtain ⟨y, h1, h2⟩ := andThen_done_iff h
    injection h2 with h2; subst h2
    obtain ⟨z, h3, h4⟩ := andThen_done_iff h1
    obtain ⟨u1, m1, k1⟩ := expand_untouched h3
    obtain ⟨k2, _, u2⟩ := append_untouched m1 (k1 _ hh0) h4 hlen
    exact ⟨_, k2, hu (u1.trans u2 (Nat.zero_le _))⟩

/-- Here the deletion itself compacts the file. -/
def compactEvs : List (Ev Unit) :=
  fullPut "a" 1 (List.replicate 20 120) ++ fullPut "pin" 1 [52, 55, 49, 49] ++
    [.delete "pin", .api (), .api (), .drop, .io id, .io id, .io id, .io id, .io id]

/-- **C93 is false** after a compaction as well: the deleted key is in no record of the closed file, its value is in the unused part. -/
theorem C93_refuted_compacted : ∃ s rs, fresh64 compactEvs = some (s, rs) ∧ (∀ r ∈ rs, r = .ok ()) ∧ s.closedOk ∧
    (∃ kvs, File s.disk kvs ∧ ∀ kv ∈ kvs, kv.key ≠ "pin") ∧ [52, 55, 49, 49] <:+: s.disk.drop (8 + header s.disk) := by
  have h : passes (fresh64 compactEvs) (fun s rs => decide ((∀ r ∈ rs, r = .ok ()) ∧ s.phase = .closed ∧ s.lp.io = .exited ∧
      fileRecords crcCodec s.disk = some [some ⟨"a", 1, List.replicate 20 120⟩] ∧
      [52, 55, 49, 49] <:+: s.disk.drop (8 + header s.disk))) = true := by decide +kernel
  obtain ⟨s, rs, h1, h2⟩ := exists_of_passes h
  simp only [decide_eq_true_eq] at h2
  obtain ⟨g1, g2, g3, g4, g5⟩ := h2
  refine ⟨s, rs, h1, g1, ⟨g2, g3⟩, ?_, g5⟩
  obtain ⟨_, content, hh, hf⟩ := readItems_inv crc_lawful rfl g4
  obtain ⟨kvs, hk, heq⟩ := framed_records' hf (by simp)
  refine ⟨kvs, ?_, ?_⟩
  · have hh : Holds s.disk content := hh
    obtain ⟨hb, tail, hd⟩ := hh
    rw [hd]
    refine ⟨_, _, tail, List.append_assoc .., by simp, ?_, hk⟩
    rw [num_eq_beVal, beVal_beBytes _ _ (by omega)]
  · intro kv hkv
    have : some (ofKv kv) ∈ kvs.map fun kv => some (ofKv kv) := List.mem_map.2 ⟨kv, hkv, rfl⟩
    rw [← heq] at this
    simp only [List.mem_singleton, Option.some.injEq] at this
    have hkey : kv.key = "a" := by
      have := congrArg Buffer.key this
      exact this
    rw [hkey]; decide

/-- The hypotheses of `C93_refuted_tail` can be met, by a write that compacts. -/
example : ∃ s', demoRest.mmLen = demoRest.file.length ∧ header demoRest.file + 8 ≤ demoRest.file.length ∧
    WState.write crcCodec id ⟨"a", 6, List.replicate 25 9⟩ true demoRest = .done s' ∧ s'.file.length < 2 ^ 64 ∧
    s'.file.length = demoRest.file.length := by
  have h : (match WState.write crcCodec id ⟨"a", 6, List.replicate 25 9⟩ true demoRest with
    | .done s' => decide (s'.file.length < 2 ^ 64 ∧ s'.file.length = demoRest.file.length)
    | .panic _ => false) = true := by decide +kernel
  split at h
  · rename_i s' hs
    simp only [decide_eq_true_eq] at h
    exact ⟨s', by decide +kernel, by decide +kernel, hs, h.1, h.2⟩
  · cases h

/-! ## clear_data -/

namespace Inst

/-- The settings of a store: page size, size of `usize`, limit of the file size. -/
structure Conf (page u : Nat) (q : Option Nat) (s : Inst ι) : Prop where
  mapped : s.lp.cb.ws.mmLen = s.lp.cb.ws.file.length
  page : s.lp.cb.ws.page = page
  usz : s.lp.cb.ws.usizeBytes = u
  quota : s.lp.cb.ws.quota = q

theorem Conf.of_cb {page u : Nat} {q : Option Nat} {s s' : Inst ι} (h : Conf page u q s) (hcb : s'.lp.cb.ws = s.lp.cb.ws) : Conf page u q s' :=
  ⟨by rw [hcb]; exact h.mapped, by rw [hcb]; exact h.page, by rw [hcb]; exact h.usz, by rw [hcb]; exact h.quota⟩

theorem conf_open {codecs : ι → Codec} {i : ι} {page : Nat} {file : Bytes} {u : Nat} {q : Option Nat} {s : Inst ι}
    (h : openAt codecs i page file u q = some s) : Conf page u q s := by
  unfold openAt at h
  split at h
  · cases h
  rename_i o ho
  injection h with h
  subst h
  unfold openStore at ho
  simp only [] at ho
  split at ho
  · cases ho
  split at ho
  · cases ho
  injection ho with ho
  subst ho
  exact ⟨rfl, rfl, rfl, rfl⟩

theorem conf_step {codecs : ι → Codec} {page u : Nat} {q : Option Nat} {s s' : Inst ι} {e : Ev ι} {r : Option (Out Unit)}
    (h : Conf page u q s) (hs : step codecs s e = some (s', r)) : Conf page u q s' := by
  cases e with
  | put k t bs =>
    simp only [step] at hs
    repeat' split at hs
    all_goals first | (cases hs; done) | (cases hs; exact h.of_cb rfl)
  | delete k =>
    simp only [step] at hs
    repeat' split at hs
    all_goals first | (cases hs; done) | (cases hs; exact h.of_cb rfl)
  | clear =>
    simp only [step] at hs
    repeat' split at hs
    all_goals first | (cases hs; done) | (cases hs; exact h.of_cb rfl)
  | drop =>
    simp only [step] at hs
    repeat' split at hs
    all_goals first | (cases hs; done) | (cases hs; exact h.of_cb rfl)
  | io o =>
    simp only [step] at hs
    split at hs
    · cases hs
    rename_i lp hio
    cases hs
    unfold Looper.ioStep at hio
    cases hpc : s.lp.io with
    | recv =>
      simp only [hpc] at hio
      repeat' split at hio
      all_goals first | (cases hio; done) | (cases hio; exact h.of_cb rfl)
    | swap => simp only [hpc] at hio; cases hio; exact h.of_cb rfl
    | unwinding => simp only [hpc] at hio; cases hio; exact h.of_cb rfl
    | exited => simp [hpc] at hio
    | dead => simp [hpc] at hio
    | run =>
      simp only [hpc] at hio
      cases hb : s.lp.buf with
      | nil => simp only [hb] at hio; cases hio; exact h.of_cb rfl
      | cons j rest =>
        simp only [hb] at hio
        cases j with
        | remove => simp only [execJob] at hio; cases hio; exact h.of_cb rfl
        | write b dup =>
          obtain ⟨n, hg⟩ := grown_write (c := codecs s.idx) o b dup h.mapped
          have hfin : ∀ ws, (WState.write (codecs s.idx) o b dup s.lp.cb.ws).state = ws →
              ws.mmLen = ws.file.length ∧ ws.page = page ∧ ws.usizeBytes = u ∧ ws.quota = q := by
            rintro ws rfl
            exact ⟨hg.mm, hg.conf.page.trans h.page, hg.conf.usz.trans h.usz, hg.conf.quota.trans h.quota⟩
          simp only [execJob] at hio
          cases hw : WState.write (codecs s.idx) o b dup s.lp.cb.ws with
          | done ws =>
            obtain ⟨f1, f2, f3, f4⟩ := hfin ws (by rw [hw]; rfl)
            simp only [hw] at hio
            cases hio
            exact ⟨f1, f2, f3, f4⟩
          | panic ws =>
            obtain ⟨f1, f2, f3, f4⟩ := hfin ws (by rw [hw]; rfl)
            simp only [hw] at hio
            cases hio
            exact ⟨f1, f2, f3, f4⟩
  | api i =>
    have hpush : ∀ j, (Looper.push s.lp j).cb = s.lp.cb := by intro j; unfold Looper.push; split <;> rfl
    have hsend : (Looper.send s.lp).1.cb = s.lp.cb := by
      unfold Looper.send
      split
      · split <;> rfl
      · rfl
    have hquit : (Looper.quitSend s.lp).1.cb = s.lp.cb := by
      unfold Looper.quitSend
      split
      · split <;> rfl
      · rfl
    simp only [step] at hs
    cases hp : s.phase with
    | idle => simp [hp] at hs
    | closed => simp [hp] at hs
    | push j => simp only [hp] at hs; cases hs; exact h.of_cb (by show (Looper.push s.lp j).cb.ws = _; rw [hpush])
    | clrPush => simp only [hp] at hs; cases hs; exact h.of_cb (by show (Looper.push s.lp _).cb.ws = _; rw [hpush])
    | send => simp only [hp] at hs; cases hs; exact h.of_cb (by show (Looper.send s.lp).1.cb.ws = _; rw [hsend])
    | clrSend =>
      simp only [hp] at hs
      split at hs <;> cases hs <;> exact h.of_cb (by show (Looper.send s.lp).1.cb.ws = _; rw [hsend])
    | clrQuit =>
      simp only [hp] at hs
      split at hs <;> cases hs <;> exact h.of_cb (by show (Looper.quitSend s.lp).1.cb.ws = _; rw [hquit])
    | clrJoin =>
      simp only [hp] at hs
      repeat' split at hs
      all_goals first | (cases hs; done) | (cases hs; exact h.of_cb rfl)
    | clrOpen =>
      simp only [hp] at hs
      split at hs
      · cases hs; exact h.of_cb rfl
      rename_i s1 hs1
      have hc := conf_open hs1
      rw [h.page, h.usz, h.quota] at hc
      repeat' split at hs
      all_goals first | (cases hs; done) | (cases hs; exact hc.of_cb rfl)

theorem conf_run {codecs : ι → Codec} {page u : Nat} {q : Option Nat} (es : List (Ev ι)) {s s' : Inst ι} {rs : List (Out Unit)}
    (h : Conf page u q s) (hs : run codecs s es = some (s', rs)) : Conf page u q s' := by
  induction es generalizing s rs with
  | nil => simp only [run, Option.some.injEq, Prod.mk.injEq] at hs; obtain ⟨rfl, _⟩ := hs; exact h
  | cons e es ih =>
    unfold run at hs
    split at hs
    · cases hs
    rename_i s1 r1 hs1
    split at hs
    · cases hs
    rename_i s2 rs2 h2
    cases hs
    exact ih (conf_step h hs1) h2

end Inst

/-- **C93**, what is true: whatever was in the store and whatever failed before, a `clear_data` that is called while gets still work and returns
`Ok` leaves the store in exactly the state in which a new directory opens: the data file is a page of zeros, and nothing anyone
can observe of the store or of its file from then on depends on what was in it.  Missing from C93: `delete` and overwriting.  (The old file
is unlinked: what becomes of its blocks on the disk is up to the file system, and not modelled.) -/
theorem C93_partial {codecs : ι → Codec} {i j : ι} {page : Nat} {file : Bytes} {u : Nat} {q : Option Nat} {s0 s s1 s' : Inst ι}
    {es es' : List (Ev ι)} {rs : List (Out Unit)} (hopen : openAt codecs i page file u q = some s0)
    (hrun : run codecs s0 es = some (s, rs)) {key : String} {t : Ty} (hget : Inst.get s key t ≠ .err .instanceClosed)
    (hclr : run codecs s (.clear :: es') = some (s1, [])) (hret : step codecs s1 (.api j) = some (s', some (.ok ()))) :
    openAt codecs j page [] u q = some s' ∧ s'.disk = zeros page := by
  have hk := kept_run es (kept_open hopen) hrun
  have hcf := conf_run es (conf_open hopen) hrun
  unfold run at hclr
  split at hclr
  · cases hclr
  rename_i s2 r2 hs2
  split at hclr
  · cases hclr
  rename_i s3 rs3 hr3
  simp only [Option.some.injEq, Prod.mk.injEq, List.append_eq_nil_iff] at hclr
  obtain ⟨rfl, hr2, rfl⟩ := hclr
  have hk2 := kept_step hk hs2
  have hcf3 := conf_run es' (conf_step hcf hs2) hr3
  simp only [step] at hs2
  split at hs2
  · cases hs2
  rename_i hidle
  have hidle : s.phase = .idle := by simpa using hidle
  split at hs2
  · cases hs2; cases hr2
  rename_i hpo
  split at hs2
  · rename_i hval
    exfalso
    apply hget
    unfold Inst.get getAs
    rw [if_neg hpo, if_pos hval]
  · rename_i hval
    have hsd := hk.sender (by simpa using hval) (by rw [hidle]; exact fun h => by cases h)
    cases hs2
    obtain ⟨hc, hk3⟩ := clearing_run es' hk2 (.push rfl hsd) hr3
    rcases clearing_step hk3 hc hret with ⟨h, _⟩ | ⟨x, hx, h⟩
    · cases h
    · injection hx with hx
      obtain ⟨j', hj, hop⟩ := h hx.symm
      injection hj with hj
      subst hj
      rw [hcf3.page, hcf3.usz, hcf3.quota] at hop
      refine ⟨hop, ?_⟩
      obtain ⟨o, ho⟩ : ∃ o, openStore (codecs j) page [] u q = some o := by
        cases ho : openStore (codecs j) page [] u q with
        | none => simp [openAt, ho] at hop
        | some o => exact ⟨o, rfl⟩
      obtain ⟨h8, rfl⟩ := openStore_nil_inv ho
      rw [openAt, openStore_nil _ _ h8] at hop
      injection hop with hop
      rw [← hop]; rfl

/-- The hypotheses can be met (`clearDemo_meets`), by a store that holds something; afterwards it is in the state of a new one. -/
example : ∃ s' : Inst Unit, openAt plain () 64 [] = some s' ∧ ∃ s0 s s1 rs es es', openAt plain () 64 [] = some s0 ∧
    run plain s0 es = some (s, rs) ∧ s.kv ≠ [] ∧ Inst.get s "z" .byteArray ≠ .err .instanceClosed ∧
    run plain s (.clear :: es') = some (s1, []) ∧ step plain s1 (.api ()) = some (s', some (.ok ())) := by
  obtain ⟨s0, s, s1, s', rs, h1, h2, h3, h4, h5⟩ := clearDemo_meets
  refine ⟨s', (C93_partial h1 h2 h3 h4 h5).1, s0, s, s1, rs, _, _, h1, h2, ?_, h3, h4, h5⟩
  intro hkv
  have h : (match openAt plain () 64 [] with
    | none => false
    | some s0 => match run plain s0 (fullPut "a" 6 [1] ++ [.put "b" 6 [2], .api (), .api ()]) with
      | none => false
      | some (s, _) => decide (s.kv ≠ [])) = true := by decide +kernel
  rw [h1] at h
  simp only [h2, decide_eq_true_eq] at h
  exact h hkv

end Mmkv
