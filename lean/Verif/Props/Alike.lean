import Verif.Lemmas.Alike
import Verif.Props.EncLife2
import Verif.Props.Amplify
/-!
# What sizes and places give away: C95

Two histories that differ only in the contents of keys and values (`EvAlike`, Verif/SpecAlike.lean) cannot be told apart by
anyone who sees the results of the calls, the length and header of the data file, and where and how much is written.
-/

namespace Mmkv
open Spec Inst
variable {ι : Type} {ρ : String → String}

theorem strBytes_nil (s : String) : s = "" ↔ (strBytes s).length = 0 := by
  constructor
  · rintro rfl; rfl
  · intro h
    have h1 : strBytes s = strBytes "" := by rw [List.length_eq_zero_iff.1 h]; rfl
    unfold strBytes at h1
    exact String.toByteArray_inj.1 (by
      generalize s.toByteArray = a at h1 ⊢
      generalize ("" : String).toByteArray = b at h1 ⊢
      cases a; cases b
      simp only at h1
      rw [Array.toList_inj.1 h1])

theorem kv_length_alike (hρ : Renames ρ) {b b' : Buffer} (h : Similar ρ b b') : (kvToBytes b').length = (kvToBytes b).length := by
  obtain ⟨h1, h2, h3⟩ := h
  have hl := hρ.len b.key
  have hk : b'.key = "" ↔ b.key = "" := by rw [strBytes_nil, strBytes_nil, h1, hl]
  have hv : b'.value = [] ↔ b.value = [] := by rw [← List.length_eq_zero_iff, ← List.length_eq_zero_iff, h3]
  have hd : ∀ x y : Bytes, x.length = y.length → (lenDelim x).length = (lenDelim y).length := by
    intro x y hxy
    simp only [lenDelim, List.length_append, hxy]
  have hdk := hd (strBytes b'.key) (strBytes b.key) (by rw [h1]; exact hl)
  have hdv := hd b'.value b.value h3
  unfold kvToBytes
  rw [h2]
  simp only [List.length_append]
  congr 1
  · congr 1
    by_cases hb : b.key = ""
    · rw [if_pos hb, if_pos (hk.2 hb)]
    · rw [if_neg hb, if_neg (fun hc => hb (hk.1 hc))]
      simp only [List.length_cons, hdk]
  · by_cases hb : b.value = []
    · rw [if_pos hb, if_pos (hv.2 hb)]
    · rw [if_neg hb, if_neg (fun hc => hb (hv.1 hc))]
      simp only [List.length_cons, hdv]

theorem seenAs_of_irel {codecs : ι → Codec} {s s' : Inst ι} (hρ : Renames ρ) (h : IRel ρ codecs s s') : SeenAs ρ s s' := by
  refine ⟨?_, ?_, h.ws.span, h.io, irel_get hρ h⟩
  · unfold disk; rw [h.removed]; split
    · rfl
    · exact h.ws.len
  · unfold disk; rw [h.removed]; split
    · rfl
    · exact h.ws.head

theorem DirRel.length {codecs : ι → Codec} {page : Nat} {d d' : Dir ι} (h : DirRel ρ codecs page d d') {i i' : ι}
    (hi : ∀ j, d.idx = some j → i = j) (hi' : ∀ j, d'.idx = some j → i' = j) : d'.file.length = d.file.length := by
  rcases h i i' hi hi' with ⟨h1, h2⟩ | ⟨_, h2, _⟩
  · rw [h1, h2]
  · exact h2

theorem dirRel_fresh {codecs : ι → Codec} {page : Nat} : DirRel ρ codecs page Dir.fresh Dir.fresh := fun _ _ _ _ => .inl ⟨rfl, rfl⟩

theorem sessions_callCount {xs xs' : List (Session ι)} (h : Pairwise2 (Session.Alike ρ) xs xs') : callCount xs' = callCount xs := by
  unfold callCount
  induction h with
  | nil => rfl
  | cons hx _ ih => simp only [List.map_cons, List.sum_cons, ih, alike_calls hx.evs]

theorem encSessions_callCount {xs xs' : List EncSession} (h : Pairwise2 (EncSession.Alike ρ) xs xs') : encCallCount xs' = encCallCount xs := by
  unfold encCallCount
  induction h with
  | nil => rfl
  | cons hx _ ih => simp only [List.map_cons, List.sum_cons, ih, alike_calls hx.evs]

/-- **C95.** Take any history of any number of sessions on a fresh directory (any interleaving with the background
thread, sessions ended by closing or by the death of the process at any point), the last one still running.  Rename its keys
(different keys stay different and keep their length in bytes), replace its values by others of the same length at the same
type, and let the hash maps yield corresponding values in the same order: the renamed history happens too, each call returns
the same, each session finds a file of the same length, and what is left is the same to an observer of sizes and places. -/
theorem C95_sizes_only {page : Nat} (h8 : 8 ≤ page) (h32 : page < 2 ^ 32) (hρ : Renames ρ) {xs xs' : List (Session Unit)} {es es' : List (Ev Unit)}
    {rss : List (List (Out Unit))} {rs : List (Out Unit)} {d : Dir Unit} {s0 s : Inst Unit}
    (hx : Pairwise2 (Session.Alike ρ) xs xs') (he : Pairwise2 (EvAlike ρ) es es')
    (hf : ∀ x ∈ xs, ∀ e ∈ x.evs, e.Fits page) (hf' : ∀ x ∈ xs', ∀ e ∈ x.evs, e.Fits page) (hfe : ∀ e ∈ es, e.Fits page) (hfe' : ∀ e ∈ es', e.Fits page)
    (hroom : page * (callCount xs + (calls es).length) + 8 < 2 ^ 64)
    (hl : Life plain page Dir.fresh xs rss d) (ho : openAt plain () page d.file = some s0) (hr : run plain s0 es = some (s, rs)) :
    ∃ d' s0' s', Life plain page Dir.fresh xs' rss d' ∧ openAt plain () page d'.file = some s0' ∧ run plain s0' es' = some (s', rs) ∧
      d'.file.length = d.file.length ∧ SeenAs ρ s s' := by
  have hrec : ∀ x x', Similar ρ x x' → (plainEnv page h8 False).recLen x = (plainEnv page h8 False).recLen x' := by
    intro x x' h
    simp only [plainEnv, crcLen, kv_length_alike hρ h]
  have hcx := sessions_callCount hx
  have hce := alike_calls he
  have hroomE : (plainEnv page h8 False).Room (callCount xs + (calls es).length) := plain_room hroom
  obtain ⟨d', hl', hd⟩ := life_alike (E := plainEnv page h8 False) hρ hrec hx (K := 0) (K' := 0) hl dirRel_fresh (goodDir_fresh _ 0) (goodDir_fresh _ 0)
    (fun x hx e he => (hf x hx e he).ok h32) (fun x hx e he => (hf' x hx e he).ok h32) (hroomE.mono (by omega)) (hroomE.mono (by omega))
  obtain ⟨_, S, _, hg⟩ := life_survives (E := plainEnv page h8 False) (K := 0) hl (goodDir_fresh _ 0) (fun x hx e he => (hf x hx e he).ok h32) (hroomE.mono (by omega))
  obtain ⟨_, S', _, hg'⟩ := life_survives (E := plainEnv page h8 False) (K := 0) hl' (goodDir_fresh _ 0) (fun x hx e he => (hf' x hx e he).ok h32) (hroomE.mono (by omega))
  obtain ⟨s0', s', ho', hr', hR, _, _⟩ := session_alike (E := plainEnv page h8 False) (i := ()) (i' := ()) hρ hrec he hd hg hg' (fun _ _ => rfl) (fun _ _ => rfl)
    (fun e h => (hfe e h).ok h32) (fun e h => (hfe' e h).ok h32) (hroomE.mono (by omega)) (hroomE.mono (by omega)) ho hr
  exact ⟨d', s0', s', hl', ho', hr', hd.length (i := ()) (i' := ()) (fun _ _ => rfl) (fun _ _ => rfl), seenAs_of_irel hρ hR⟩

/-! ### Encrypted -/

/-- Two encrypted directories that look the same from outside, each good under its key. -/
structure EncDirRel (ρ : String → String) (C : Cipher) (page : Nat) (h8 : 8 ≤ page) (K : Nat) (k k' : Bytes) (d d' : EncDir) : Prop where
  ex : ∃ g g' S S', d.Fits k g ∧ d'.Fits k' g' ∧ GoodDir (encEnv C page h8 False) K g S ∧ GoodDir (encEnv C page h8 False) K g' S' ∧
    DirRel ρ (encrypted C) page g g'

theorem fits_idx {k rand : Bytes} {d : EncDir} {g : Dir (Bytes × Bytes)} (h : d.Fits k g) : ∀ j, g.idx = some j → (k, initNonce d.nonceFile rand) = j := by
  intro j hj
  obtain ⟨h1, h2, h3⟩ := h.2 j hj
  rw [h3]
  simp only [initNonce, h2, if_true]
  rw [← h1]

theorem fits_left {k : Bytes} {s : Inst (Bytes × Bytes)} (half : Bool) (h : s.idx.1 = k ∧ s.idx.2.length = nonceLen) : (encLeft s half).Fits k s.dir := by
  refine ⟨rfl, ?_⟩
  intro j hj
  simp only [dir] at hj
  cases hrm : s.lp.cb.removed with
  | true => simp [hrm] at hj
  | false =>
    simp only [hrm, Bool.false_eq_true, if_false, Option.some.injEq] at hj
    subst hj
    exact ⟨h.1, h.2, by simp [encLeft, hrm]⟩

theorem idx_fits {C : Cipher} {page cap : Nat} {k rand : Bytes} {d : EncDir} {es : List (Ev (Bytes × Bytes))} {s s1 : Inst (Bytes × Bytes)} {rs : List (Out Unit)}
    (hrand : rand.length = nonceLen) (hfit : ∀ e ∈ es, e.EncFits k cap) (ho : openAt (encrypted C) (k, initNonce d.nonceFile rand) page d.file = some s)
    (hr : run (encrypted C) s es = some (s1, rs)) : s1.idx.1 = k ∧ s1.idx.2.length = nonceLen := by
  apply idx_run (P := fun i => i.1 = k ∧ i.2.length = nonceLen) es _ _ hr
  · unfold openAt at ho
    split at ho
    · cases ho
    · injection ho with ho; subst ho; exact ⟨rfl, initNonce_length hrand⟩
  · intro i hi
    exact hfit _ hi

/-- One session on two encrypted directories that look the same. -/
theorem enc_session_alike {C : Cipher} {page : Nat} (h8 : 8 ≤ page) (h32 : page < 2 ^ 32) (hρ : Renames ρ) {key key' : String} {k k' : Bytes}
    (hk : decodeKey key = some k) (hk' : decodeKey key' = some k') {K : Nat} {d d' : EncDir} {rand rand' : Bytes} {es es' : List (Ev (Bytes × Bytes))}
    {s s1 : Inst (Bytes × Bytes)} {rs : List (Out Unit)} (he : Pairwise2 (EvAlike ρ) es es') (hd : EncDirRel ρ C page h8 K k k' d d')
    (hrand : rand.length = nonceLen) (hrand' : rand'.length = nonceLen) (hf : ∀ e ∈ es, e.EncFits k page) (hf' : ∀ e ∈ es', e.EncFits k' page)
    (hroom : (encEnv C page h8 False).Room (K + (calls es).length)) (ho : openEnc C page key rand d = some s) (hr : run (encrypted C) s es = some (s1, rs)) :
    ∃ s' s1', openEnc C page key' rand' d' = some s' ∧ run (encrypted C) s' es' = some (s1', rs) ∧ d'.file.length = d.file.length ∧ IRel ρ (encrypted C) s1 s1' ∧
      ∀ half half' clean, (clean = true → s1.closedOk) → EncDirRel ρ C page h8 (K + (calls es).length) k k' (encLeft s1 half) (encLeft s1' half') := by
  have hrec : ∀ x x', Similar ρ x x' → (encEnv C page h8 False).recLen x = (encEnv C page h8 False).recLen x' := by
    intro x x' h
    simp only [encEnv, aeadLen, kv_length_alike hρ h]
  obtain ⟨g, g', S, S', hg, hg', gd, gd', hR⟩ := hd.ex
  rw [openEnc_eq hk] at ho
  have hce := alike_calls he
  have hi := fits_idx (rand := rand) hg
  have hi' := fits_idx (rand := rand') hg'
  obtain ⟨s', s1', ho', hr', hI, hv, hv'⟩ := session_alike (E := encEnv C page h8 False) hρ hrec he hR gd gd' hi hi' (fun e h => (hf e h).ok h32)
    (fun e h => (hf' e h).ok h32) hroom (by rw [hce]; exact hroom) (by rw [hg.1]; exact ho) hr
  have ho2 : openAt (encrypted C) (k', initNonce d'.nonceFile rand') page d'.file = some s' := by rw [← hg'.1]; exact ho'
  refine ⟨s', s1', by rw [openEnc_eq hk']; exact ho2, hr', ?_, hI, ?_⟩
  · rw [← hg.1, ← hg'.1]; exact hR.length hi hi'
  · intro half half' clean hc
    obtain ⟨_, _, _, g1⟩ := goodDir_end hv clean hc
    obtain ⟨_, _, _, g2⟩ := goodDir_end hv' clean (fun hcl => hI.closedOk (hc hcl))
    rw [hce] at g2
    exact ⟨_, _, _, _, fits_left half (idx_fits hrand hf ho hr), fits_left half' (idx_fits hrand' hf' ho2 hr'), g1, g2, irel_dir hv hv' hI⟩

theorem enc_life_alike {C : Cipher} {page : Nat} (h8 : 8 ≤ page) (h32 : page < 2 ^ 32) (hρ : Renames ρ) {key key' : String} {k k' : Bytes}
    (hk : decodeKey key = some k) (hk' : decodeKey key' = some k') {xs xs' : List EncSession} {d1 : EncDir} (hx : Pairwise2 (EncSession.Alike ρ) xs xs') :
    ∀ {K : Nat} {d d' : EncDir} {rss : List (List (Out Unit))}, EncLife C page d xs rss d1 → EncDirRel ρ C page h8 K k k' d d' → SameKey key k page xs →
      SameKey key' k' page xs' → (encEnv C page h8 False).Room (K + encCallCount xs) →
      ∃ d1', EncLife C page d' xs' rss d1' ∧ EncDirRel ρ C page h8 (K + encCallCount xs) k k' d1 d1' := by
  induction hx with
  | nil =>
    intro K d d' rss hl hd _ _ _
    cases hl
    exact ⟨d', .nil _, by simpa [encCallCount] using hd⟩
  | @cons x x' xs xs' hx _ ih =>
    intro K d d' rss hl hd hs hs' hroom
    have : Nonempty (Bytes × Bytes) := ⟨([], [])⟩
    have hcnt : encCallCount (x :: xs) = (calls x.evs).length + encCallCount xs := by simp [encCallCount]
    rw [hcnt, ← Nat.add_assoc] at hroom ⊢
    cases hl with
    | @cons _ _ _ _ s s1 rs rss ho hr hc rest =>
    rw [hs.key x List.mem_cons_self] at ho
    obtain ⟨s', s1', ho', hr', _, hI, hleft⟩ := enc_session_alike h8 h32 hρ hk hk' hx.evs hd (hs.rand x List.mem_cons_self) (hs'.rand x' List.mem_cons_self)
      (hs.fits x List.mem_cons_self) (hs'.fits x' List.mem_cons_self) (hroom.mono (by omega)) ho hr
    rw [← hs'.key x' List.mem_cons_self] at ho'
    obtain ⟨d1', hl', hd'⟩ := ih rest (hleft x.half x'.half x.clean hc)
      ⟨fun y hy => hs.key y (List.mem_cons_of_mem _ hy), fun y hy => hs.rand y (List.mem_cons_of_mem _ hy), fun y hy => hs.fits y (List.mem_cons_of_mem _ hy)⟩
      ⟨fun y hy => hs'.key y (List.mem_cons_of_mem _ hy), fun y hy => hs'.rand y (List.mem_cons_of_mem _ hy), fun y hy => hs'.fits y (List.mem_cons_of_mem _ hy)⟩ hroom
    exact ⟨d1', .cons ho' hr' (fun hcl => hI.closedOk (hc (by rw [← hx.clean]; exact hcl))) hl', hd'⟩

/-- **C95, encrypted.** The same for an encrypted store, where the second history may moreover use another encryption key and
any nonces: with the encryption key unknown, a watcher of the directory learns no more than sizes, places, and which calls
use the same key. -/
theorem C95_sizes_only_encrypted {C : Cipher} {page : Nat} (h8 : 8 ≤ page) (h32 : page < 2 ^ 32) (hρ : Renames ρ) {key key' : String} {k k' : Bytes}
    (hk : decodeKey key = some k) (hk' : decodeKey key' = some k') {xs xs' : List EncSession} {es es' : List (Ev (Bytes × Bytes))}
    {rss : List (List (Out Unit))} {rs : List (Out Unit)} {d : EncDir} {rand rand' : Bytes} {s0 s : Inst (Bytes × Bytes)}
    (hx : Pairwise2 (EncSession.Alike ρ) xs xs') (he : Pairwise2 (EvAlike ρ) es es')
    (hs : SameKey key k page xs) (hs' : SameKey key' k' page xs') (hrand : rand.length = nonceLen) (hrand' : rand'.length = nonceLen)
    (hf : ∀ e ∈ es, e.EncFits k page) (hf' : ∀ e ∈ es', e.EncFits k' page)
    (hroom : page * (encCallCount xs + (calls es).length) + 8 < 2 ^ 64) (hcnt : encCallCount xs + (calls es).length < 2 ^ 32 - 1)
    (hl : EncLife C page EncDir.fresh xs rss d) (ho : openEnc C page key rand d = some s0) (hr : run (encrypted C) s0 es = some (s, rs)) :
    ∃ d' s0' s', EncLife C page EncDir.fresh xs' rss d' ∧ openEnc C page key' rand' d' = some s0' ∧ run (encrypted C) s0' es' = some (s', rs) ∧
      d'.file.length = d.file.length ∧ SeenAs ρ s s' := by
  have : Nonempty (Bytes × Bytes) := ⟨([], [])⟩
  have hroomE : (encEnv C page h8 False).Room (0 + encCallCount xs + (calls es).length) := by
    rw [Nat.zero_add]; exact ⟨hroom, hcnt⟩
  obtain ⟨d', hl', hd⟩ := enc_life_alike h8 h32 hρ hk hk' hx (K := 0) (d := EncDir.fresh) (d' := EncDir.fresh) hl
    ⟨Dir.fresh, Dir.fresh, _, _, ⟨rfl, by simp [Dir.fresh]⟩, ⟨rfl, by simp [Dir.fresh]⟩, goodDir_fresh _ 0, goodDir_fresh _ 0, dirRel_fresh⟩ hs hs' (hroomE.mono (by omega))
  obtain ⟨s0', s', ho', hr', hlen, hI, _⟩ := enc_session_alike h8 h32 hρ hk hk' he hd hrand hrand' hf hf' hroomE ho hr
  exact ⟨d', s0', s', hl', ho', hr', hlen, seenAs_of_irel hρ hI⟩

/-! ### The hypotheses can be met -/

/-- Exchanges the keys `"a"` and `"b"`. -/
def swapAB (k : String) : String := if k = "a" then "b" else if k = "b" then "a" else k

theorem swapAB_renames : Renames swapAB := by
  have hinv : ∀ a, swapAB (swapAB a) = a := by
    intro a
    unfold swapAB
    by_cases h1 : a = "a"
    · subst h1; decide
    · by_cases h2 : a = "b"
      · subst h2; decide
      · simp [h1, h2]
  refine ⟨fun a b h => by rw [← hinv a, h, hinv], ?_⟩
  intro a
  unfold swapAB
  split
  · rename_i h; subst h; decide
  · split
    · rename_i h; subst h; decide
    · rfl

theorem pairwise2_reverse {α β : Type} {R : α → β → Prop} {l : List α} {l' : List β} (h : Pairwise2 R l l') : Pairwise2 R l.reverse l'.reverse := by
  induction h with
  | nil => exact .nil
  | cons hab _ ih =>
    rw [List.reverse_cons, List.reverse_cons]
    exact ih.append (.single hab)

theorem sameOrder_reverse : SameOrder ρ List.reverse List.reverse := fun _ _ h => pairwise2_reverse h

theorem alike_fullPut (k : String) (t : BitVec 32) {bs bs' : Bytes} (h : bs'.length = bs.length) :
    Pairwise2 (EvAlike ρ) (fullPut k t bs) (fullPut (ρ k) t bs') :=
  .cons (.put k t bs bs' h) (.cons (.api _ _) (.cons (.api _ _) (.cons (.io _ _ sameOrder_reverse) (.cons (.io _ _ sameOrder_reverse)
    (.cons (.io _ _ sameOrder_reverse) (.cons (.io _ _ sameOrder_reverse) .nil))))))

theorem fullPut_fits' {page : Nat} {k : String} {t : BitVec 32} {bs : Bytes} (h : recordSize k t bs ≤ page) : ∀ e ∈ fullPut k t bs, e.Fits page := by
  intro e he
  simp only [fullPut, List.mem_cons, List.not_mem_nil, or_false] at he
  rcases he with rfl | rfl | rfl | rfl | rfl | rfl | rfl <;> simp only [Ev.Fits]
  · exact h
  all_goals exact fun l => List.reverse_perm l

/-- Two puts, then the process dies; two more in the next session, of which the last compacts the file. -/
example : ∃ rss d s0 s rs, Life plain 64 Dir.fresh [⟨(), fullPut "a" 1 [1, 2, 3] ++ fullPut "b" 1 [4, 5, 6, 7], false⟩] rss d ∧
    openAt plain () 64 d.file = some s0 ∧ run plain s0 (fullPut "a" 1 (zeros 10) ++ fullPut "a" 1 (zeros 9)) = some (s, rs) ∧ s.disk.length = 64 ∧ header s.disk = 37 ∧
    (∃ d' s0' s', Life plain 64 Dir.fresh [⟨(), fullPut "b" 1 [9, 9, 9] ++ fullPut "a" 1 [8, 8, 8, 8], false⟩] rss d' ∧
      openAt plain () 64 d'.file = some s0' ∧ run plain s0' (fullPut "b" 1 (List.replicate 10 7) ++ fullPut "b" 1 (List.replicate 9 6)) = some (s', rs) ∧
      d'.file.length = d.file.length ∧ SeenAs swapAB s s') := by
  have hc : ((lifeRun 64 (Dir.fresh : Dir Unit).file [⟨(), fullPut "a" 1 [1, 2, 3] ++ fullPut "b" 1 [4, 5, 6, 7], false⟩]).bind fun p =>
      (openAt plain () 64 p.2).bind fun s0 => (run plain s0 (fullPut "a" 1 (zeros 10) ++ fullPut "a" 1 (zeros 9))).map fun q =>
        (q.1.disk.length, header q.1.disk)) = some (64, 37) := by decide +kernel
  cases h1 : lifeRun 64 (Dir.fresh : Dir Unit).file [⟨(), fullPut "a" 1 [1, 2, 3] ++ fullPut "b" 1 [4, 5, 6, 7], false⟩] with
  | none => rw [h1] at hc; cases hc
  | some p =>
  obtain ⟨rss, f⟩ := p
  obtain ⟨d, hl, rfl⟩ := life_of_lifeRun _ _ _ _ h1
  rw [h1] at hc
  simp only [Option.bind_some] at hc
  cases h2 : openAt plain () 64 d.file with
  | none => rw [h2] at hc; cases hc
  | some s0 =>
  rw [h2] at hc
  simp only [Option.bind_some] at hc
  cases h3 : run plain s0 (fullPut "a" 1 (zeros 10) ++ fullPut "a" 1 (zeros 9)) with
  | none => rw [h3] at hc; cases hc
  | some q =>
  obtain ⟨s, rs⟩ := q
  rw [h3] at hc
  simp only [Option.map_some, Option.some.injEq, Prod.mk.injEq] at hc
  have hb : swapAB "a" = "b" ∧ swapAB "b" = "a" := by decide
  have hE : Pairwise2 (EvAlike swapAB) (fullPut "a" 1 (zeros 10) ++ fullPut "a" 1 (zeros 9)) (fullPut "b" 1 (List.replicate 10 7) ++ fullPut "b" 1 (List.replicate 9 6)) := by
    have h := (alike_fullPut (ρ := swapAB) "a" 1 (bs := zeros 10) (bs' := List.replicate 10 7) (by decide)).append
      (alike_fullPut (ρ := swapAB) "a" 1 (bs := zeros 9) (bs' := List.replicate 9 6) (by decide))
    rwa [hb.1] at h
  have hX : Pairwise2 (EvAlike swapAB) (fullPut "a" 1 [1, 2, 3] ++ fullPut "b" 1 [4, 5, 6, 7]) (fullPut "b" 1 [9, 9, 9] ++ fullPut "a" 1 [8, 8, 8, 8]) := by
    have h := (alike_fullPut (ρ := swapAB) "a" 1 (bs := [1, 2, 3]) (bs' := [9, 9, 9]) (by decide)).append
      (alike_fullPut (ρ := swapAB) "b" 1 (bs := [4, 5, 6, 7]) (bs' := [8, 8, 8, 8]) (by decide))
    rwa [hb.1, hb.2] at h
  have hfit : ∀ (k k' : String) (bs bs' : Bytes), recordSize k 1 bs ≤ 64 → recordSize k' 1 bs' ≤ 64 → ∀ e ∈ fullPut k 1 bs ++ fullPut k' 1 bs', e.Fits 64 := by
    intro k k' bs bs' h h' e he
    rcases List.mem_append.1 he with he | he
    · exact fullPut_fits' h e he
    · exact fullPut_fits' h' e he
  have hXs : Pairwise2 (Session.Alike swapAB) [⟨(), fullPut "a" 1 [1, 2, 3] ++ fullPut "b" 1 [4, 5, 6, 7], false⟩]
      [⟨(), fullPut "b" 1 [9, 9, 9] ++ fullPut "a" 1 [8, 8, 8, 8], false⟩] := .single ⟨hX, rfl⟩
  refine ⟨rss, d, s0, s, rs, hl, h2, h3, hc.1, hc.2, ?_⟩
  refine C95_sizes_only (by decide) (by decide) swapAB_renames hXs hE ?_ ?_ (hfit _ _ _ _ (by decide +kernel) (by decide +kernel))
    (hfit _ _ _ _ (by decide +kernel) (by decide +kernel)) (by decide +kernel) hl h2 h3
  · intro x hx
    simp only [List.mem_singleton] at hx
    subst hx
    exact hfit _ _ _ _ (by decide +kernel) (by decide +kernel)
  · intro x hx
    simp only [List.mem_singleton] at hx
    subst hx
    exact hfit _ _ _ _ (by decide +kernel) (by decide +kernel)

theorem alike_encPut (i i' : Bytes × Bytes) (k : String) (t : BitVec 32) {bs bs' : Bytes} (h : bs'.length = bs.length) :
    Pairwise2 (EvAlike ρ) (encPut i k t bs) (encPut i' (ρ k) t bs') :=
  .cons (.put k t bs bs' h) (.cons (.api _ _) (.cons (.api _ _) (.cons (.io _ _ sameOrder_reverse) (.cons (.io _ _ sameOrder_reverse)
    (.cons (.io _ _ sameOrder_reverse) (.cons (.io _ _ sameOrder_reverse) .nil))))))

theorem encPut_fits' {page : Nat} {i : Bytes × Bytes} {k : String} {t : BitVec 32} {bs : Bytes} (h : encRecordSize k t bs ≤ page) (hi : i.2.length = nonceLen) :
    ∀ e ∈ encPut i k t bs, e.EncFits i.1 page := by
  intro e he
  simp only [encPut, List.mem_cons, List.not_mem_nil, or_false] at he
  rcases he with rfl | rfl | rfl | rfl | rfl | rfl | rfl <;> simp only [Ev.EncFits]
  · exact h
  · exact ⟨trivial, hi⟩
  · exact ⟨trivial, hi⟩
  all_goals exact fun l => List.reverse_perm l

/-- With encryption: an overwrite that compacts the file, under two encryption keys and nonces. -/
example : ∃ s0 s rs, openEnc toy 64 testKey nonce1 EncDir.fresh = some s0 ∧
    run (encrypted toy) s0 (encPut (testKeyBytes, nonce1) "a" 1 (zeros 20) ++ encPut (testKeyBytes, nonce1) "a" 1 (zeros 21)) = some (s, rs) ∧
    (∃ d' s0' s', EncLife toy 64 EncDir.fresh [] [] d' ∧ openEnc toy 64 "000102030405060708090A0B0C0D0E0F" (List.replicate 11 5) d' = some s0' ∧
      run (encrypted toy) s0' (encPut ([0, 1, 2, 3, 4, 5, 6, 7, 8, 9, 10, 11, 12, 13, 14, 15], List.replicate 11 5) "b" 1 (List.replicate 20 7) ++
        encPut ([0, 1, 2, 3, 4, 5, 6, 7, 8, 9, 10, 11, 12, 13, 14, 15], List.replicate 11 5) "b" 1 (List.replicate 21 8)) = some (s', rs) ∧
      d'.file.length = EncDir.fresh.file.length ∧ SeenAs swapAB s s') := by
  obtain ⟨s0, s, rs, h1, _, h3, _⟩ := encOverwrite_meets
  refine ⟨s0, s, rs, h1, h3, ?_⟩
  have hb : swapAB "a" = "b" := by decide
  have hE : Pairwise2 (EvAlike swapAB) (encPut (testKeyBytes, nonce1) "a" 1 (zeros 20) ++ encPut (testKeyBytes, nonce1) "a" 1 (zeros 21))
      (encPut ([0, 1, 2, 3, 4, 5, 6, 7, 8, 9, 10, 11, 12, 13, 14, 15], List.replicate 11 5) "b" 1 (List.replicate 20 7) ++
        encPut ([0, 1, 2, 3, 4, 5, 6, 7, 8, 9, 10, 11, 12, 13, 14, 15], List.replicate 11 5) "b" 1 (List.replicate 21 8)) := by
    have h := (alike_encPut (ρ := swapAB) (testKeyBytes, nonce1) ([0, 1, 2, 3, 4, 5, 6, 7, 8, 9, 10, 11, 12, 13, 14, 15], List.replicate 11 5) "a" 1
      (bs := zeros 20) (bs' := List.replicate 20 7) (by decide)).append
      (alike_encPut (ρ := swapAB) (testKeyBytes, nonce1) ([0, 1, 2, 3, 4, 5, 6, 7, 8, 9, 10, 11, 12, 13, 14, 15], List.replicate 11 5) "a" 1
      (bs := zeros 21) (bs' := List.replicate 21 8) (by decide))
    rwa [hb] at h
  have hfit : ∀ (i : Bytes × Bytes) (k : String) (bs bs' : Bytes), encRecordSize k 1 bs ≤ 64 → encRecordSize k 1 bs' ≤ 64 → i.2.length = nonceLen →
      ∀ e ∈ encPut i k 1 bs ++ encPut i k 1 bs', e.EncFits i.1 64 := by
    intro i k bs bs' h h' hi e he
    rcases List.mem_append.1 he with he | he
    · exact encPut_fits' h hi e he
    · exact encPut_fits' h' hi e he
  exact C95_sizes_only_encrypted (by decide) (by decide) swapAB_renames decode_testKey (k' := [0, 1, 2, 3, 4, 5, 6, 7, 8, 9, 10, 11, 12, 13, 14, 15]) (by decide +kernel)
    .nil hE ⟨by simp, by simp, by simp⟩ ⟨by simp, by simp, by simp⟩ (by decide) (by decide)
    (hfit (testKeyBytes, nonce1) _ _ _ (by decide +kernel) (by decide +kernel) (by decide))
    (hfit ([0, 1, 2, 3, 4, 5, 6, 7, 8, 9, 10, 11, 12, 13, 14, 15], List.replicate 11 5) _ _ _ (by decide +kernel) (by decide +kernel) (by decide))
    (by decide +kernel) (by decide +kernel) (.nil _) h1 h3

/-- Which calls use the same key does show: two puts of equal sizes leave a file of one page or of two. -/
theorem C95_repeats_show : ∃ s0 s s', openAt plain () 64 [] = some s0 ∧
    run plain s0 (fullPut "a" 1 (zeros 20) ++ fullPut "a" 1 (zeros 20)) = some (s, [.ok (), .ok ()]) ∧
    run plain s0 (fullPut "a" 1 (zeros 20) ++ fullPut "b" 1 (zeros 20)) = some (s', [.ok (), .ok ()]) ∧ s.disk.length = 64 ∧ s'.disk.length = 128 := by
  have hc : ((openAt plain () 64 []).bind fun s0 => (run plain s0 (fullPut "a" 1 (zeros 20) ++ fullPut "a" 1 (zeros 20))).bind fun p =>
      (run plain s0 (fullPut "a" 1 (zeros 20) ++ fullPut "b" 1 (zeros 20))).map fun q => (p.2, q.2, p.1.disk.length, q.1.disk.length)) =
      some ([.ok (), .ok ()], [.ok (), .ok ()], 64, 128) := by decide +kernel
  cases h1 : openAt plain () 64 [] with
  | none => rw [h1] at hc; cases hc
  | some s0 =>
  rw [h1] at hc
  simp only [Option.bind_some] at hc
  cases h2 : run plain s0 (fullPut "a" 1 (zeros 20) ++ fullPut "a" 1 (zeros 20)) with
  | none => rw [h2] at hc; cases hc
  | some p =>
  rw [h2] at hc
  simp only [Option.bind_some] at hc
  cases h3 : run plain s0 (fullPut "a" 1 (zeros 20) ++ fullPut "b" 1 (zeros 20)) with
  | none => rw [h3] at hc; cases hc
  | some q =>
  rw [h3] at hc
  simp only [Option.map_some, Option.some.injEq, Prod.mk.injEq] at hc
  obtain ⟨s, rs⟩ := p
  obtain ⟨s', rs'⟩ := q
  obtain ⟨rfl, rfl, h4, h5⟩ := hc
  exact ⟨s0, s, s', rfl, h2, h3, h4, h5⟩

end Mmkv
