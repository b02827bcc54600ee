import Verif.Lemmas.CoreText
import Verif.Props.Alike
/-!
# C104: what the core of the store logs gives away sizes only

The Rust API logs through the core alone; a program that uses it directly sees these messages, and the C and Kotlin interfaces
add theirs (C103).
-/

namespace Mmkv.CoreText
open Spec Inst LogText
variable {ρ : String → String}

/-- **C104.** Take any history of any number of sessions on a fresh directory, the last one still running, rename its keys
(different keys stay different and keep their length in bytes) and replace its values by others of the same length at the same
type: the other history happens too, with the same results, and in its last session the store logs the same messages with the
same texts, at every level, from opening on; none of them reports an error.  (Any session of a history is the last one of an
initial part of it.) -/
theorem C104_log_sizes_only {page : Nat} (h8 : 8 ≤ page) (h32 : page < 2 ^ 32) (hρ : Renames ρ) {xs xs' : List (Session Unit)} {es es' : List (Ev Unit)}
    {rss : List (List (Out Unit))} {rs : List (Out Unit)} {d : Dir Unit} {s0 s : Inst Unit}
    (hx : Pairwise2 (Session.Alike ρ) xs xs') (he : Pairwise2 (EvAlike ρ) es es')
    (hf : ∀ x ∈ xs, ∀ e ∈ x.evs, e.Fits page) (hf' : ∀ x ∈ xs', ∀ e ∈ x.evs, e.Fits page) (hfe : ∀ e ∈ es, e.Fits page) (hfe' : ∀ e ∈ es', e.Fits page)
    (hroom : page * (callCount xs + (calls es).length) + 8 < 2 ^ 64)
    (hl : Life plain page Dir.fresh xs rss d) (ho : openAt plain () page d.file = some s0) (hr : run plain s0 es = some (s, rs)) :
    ∃ d' s0' s', Life plain page Dir.fresh xs' rss d' ∧ openAt plain () page d'.file = some s0' ∧ run plain s0' es' = some (s', rs) ∧
      openText (plain ()) page d'.file ++ runText plain s0' es' = openText (plain ()) page d.file ++ runText plain s0 es ∧
      ∀ m ∈ openText (plain ()) page d.file ++ runText plain s0 es, m.1 ≠ .error := by
  have hrec : ∀ x x', Similar ρ x x' → (plainEnv page h8 False).recLen x = (plainEnv page h8 False).recLen x' := by
    intro x x' h
    simp only [plainEnv, crcLen, kv_length_alike hρ h]
  have hcx := sessions_callCount hx
  have hce := alike_calls he
  have hroomE : (plainEnv page h8 False).Room (callCount xs + (calls es).length) := plain_room hroom
  obtain ⟨d', hl', hd⟩ := life_alike (E := plainEnv page h8 False) hρ hrec hx (K := 0) (K' := 0) hl dirRel_fresh (goodDir_fresh _ 0) (goodDir_fresh _ 0)
    (fun x hx e he => (hf x hx e he).ok h32) (fun x hx e he => (hf' x hx e he).ok h32) (hroomE.mono (by omega)) (hroomE.mono (by omega))
  obtain ⟨_, S, _, hg⟩ := life_survives (E := plainEnv page h8 False) (K := 0) hl (goodDir_fresh _ 0) (fun x hx e he => (hf x hx e he).ok h32) (hroomE.mono (by omega))
  obtain ⟨_, S', _, hg'⟩ := life_survives (E := plainEnv page h8 False) (K := 0) hl' (goodDir_fresh _ 0) (fun x hx e he => (hf' x hx e he).ok h32) (hroomE.mono (by omega))
  obtain ⟨s0', s', ho', hr', _, _, _⟩ := session_alike (E := plainEnv page h8 False) (i := ()) (i' := ()) hρ hrec he hd hg hg' (fun _ _ => rfl) (fun _ _ => rfl)
    (fun e h => (hfe e h).ok h32) (fun e h => (hfe' e h).ok h32) (hroomE.mono (by omega)) (hroomE.mono (by omega)) ho hr
  obtain ⟨t1, t2⟩ := sessionText_alike (E := plainEnv page h8 False) (i := ()) (i' := ()) hρ hrec (fun h => h) he hd hg hg' (fun _ _ => rfl) (fun _ _ => rfl)
    (fun e h => (hfe e h).ok h32) (fun e h => (hfe' e h).ok h32) (hroomE.mono (by omega)) (hroomE.mono (by omega)) ho ho' hr
  exact ⟨d', s0', s', hl', ho', hr', t1, t2⟩

/-- **C104, encrypted.** The same for an encrypted store, where the other history may use another encryption key and any
nonces. -/
theorem C104_log_sizes_only_encrypted {C : Cipher} {page : Nat} (h8 : 8 ≤ page) (h32 : page < 2 ^ 32) (hρ : Renames ρ) {key key' : String} {k k' : Bytes}
    (hk : decodeKey key = some k) (hk' : decodeKey key' = some k') {xs xs' : List EncSession} {es es' : List (Ev (Bytes × Bytes))}
    {rss : List (List (Out Unit))} {rs : List (Out Unit)} {d : EncDir} {rand rand' : Bytes} {s0 s : Inst (Bytes × Bytes)}
    (hx : Pairwise2 (EncSession.Alike ρ) xs xs') (he : Pairwise2 (EvAlike ρ) es es')
    (hs : SameKey key k page xs) (hs' : SameKey key' k' page xs') (hrand : rand.length = nonceLen) (hrand' : rand'.length = nonceLen)
    (hf : ∀ e ∈ es, e.EncFits k page) (hf' : ∀ e ∈ es', e.EncFits k' page)
    (hroom : page * (encCallCount xs + (calls es).length) + 8 < 2 ^ 64) (hcnt : encCallCount xs + (calls es).length < 2 ^ 32 - 1)
    (hl : EncLife C page EncDir.fresh xs rss d) (ho : openEnc C page key rand d = some s0) (hr : run (encrypted C) s0 es = some (s, rs)) :
    ∃ d' s0' s', EncLife C page EncDir.fresh xs' rss d' ∧ openEnc C page key' rand' d' = some s0' ∧ run (encrypted C) s0' es' = some (s', rs) ∧
      openText (encrypted C s0'.idx) page d'.file ++ runText (encrypted C) s0' es' = openText (encrypted C s0.idx) page d.file ++ runText (encrypted C) s0 es ∧
      ∀ m ∈ openText (encrypted C s0.idx) page d.file ++ runText (encrypted C) s0 es, m.1 ≠ .error := by
  have : Nonempty (Bytes × Bytes) := ⟨([], [])⟩
  have hroomE : (encEnv C page h8 False).Room (0 + encCallCount xs + (calls es).length) := by
    rw [Nat.zero_add]; exact ⟨hroom, hcnt⟩
  have hrec : ∀ x x', Similar ρ x x' → (encEnv C page h8 False).recLen x = (encEnv C page h8 False).recLen x' := by
    intro x x' h
    simp only [encEnv, aeadLen, kv_length_alike hρ h]
  obtain ⟨d', hl', hd⟩ := enc_life_alike h8 h32 hρ hk hk' hx (K := 0) (d := EncDir.fresh) (d' := EncDir.fresh) hl
    ⟨Dir.fresh, Dir.fresh, _, _, ⟨rfl, by simp [Dir.fresh]⟩, ⟨rfl, by simp [Dir.fresh]⟩, goodDir_fresh _ 0, goodDir_fresh _ 0, dirRel_fresh⟩ hs hs' (hroomE.mono (by omega))
  obtain ⟨s0', s', ho', hr', _, _, _⟩ := enc_session_alike h8 h32 hρ hk hk' he hd hrand hrand' hf hf' hroomE ho hr
  refine ⟨d', s0', s', hl', ho', hr', ?_⟩
  obtain ⟨g, g', S, S', hg, hg', gd, gd', hR⟩ := hd.ex
  have ho2 := ho
  have ho2' := ho'
  rw [openEnc_eq hk] at ho2
  rw [openEnc_eq hk'] at ho2'
  have hce := alike_calls he
  have hidx : ∀ {i : Bytes × Bytes} {file : Bytes} {s : Inst (Bytes × Bytes)}, openAt (encrypted C) i page file = some s → s.idx = i := by
    intro i file s h
    unfold openAt at h
    split at h
    · cases h
    · cases h; rfl
  rw [hidx ho2, hidx ho2', ← hg.1, ← hg'.1]
  rw [← hg.1] at ho2
  rw [← hg'.1] at ho2'
  exact sessionText_alike (E := encEnv C page h8 False) hρ hrec (fun h => h) he hR gd gd' (fits_idx (rand := rand) hg) (fits_idx (rand := rand') hg')
    (fun e h => (hf e h).ok h32) (fun e h => (hf' e h).ok h32) hroomE (by rw [hce]; exact hroomE) ho2 ho2' hr

/-! ### The hypotheses can be met -/

/-- What is logged from opening a fresh directory on. -/
def freshText (es : List (Ev Unit)) : Option (List Msg) :=
  (openAt plain () 64 []).map fun s0 => openText (plain ()) 64 [] ++ runText plain s0 es

/-- A clear from the call to the return. -/
def clearEvs : List (Ev Unit) :=
  [.clear, .api (), .api (), .api (), .io .reverse, .io .reverse, .io .reverse, .io .reverse, .io .reverse, .api (), .api ()]

/-- A put that fits, one that makes the file larger, one that compacts it, a clear, and the drop of the store. -/
def talk (k k' : String) (v v' w : Bytes) : List (Ev Unit) :=
  fullPut k 1 v ++ fullPut k' 1 v' ++ fullPut k 1 v' ++ fullPut k 1 v' ++ fullPut k 1 w ++ fullPut k 1 w ++ clearEvs ++ [.drop, .io .reverse]

theorem talk_logs : freshText (talk "a" "b" (zeros 20) (zeros 25) (zeros 30)) = some
    [(.info, "instance initialized, read 0 items, content len 8, file size 64, cost "),
     (.info, "start expand, file size: 64"), (.info, "expanded, file size: 128, cost "),
     (.info, "start trim, current len 114"), (.info, "start take snapshot"), (.info, "snapshot finished in "),
     (.info, "wrote 2 items, new len 82, cost "),
     (.info, "start trim, current len 124"), (.info, "start take snapshot"), (.info, "snapshot finished in "),
     (.info, "wrote 2 items, new len 87, cost "),
     (.debug, "waiting for remain tasks to finish"), (.info, "data cleared"),
     (.info, "instance initialized, read 0 items, content len 8, file size 64, cost "), (.debug, "IOLooper dropped, cost "),
     (.debug, "drop MMKV, remain ref count 0"), (.verbose, "io thread finished"), (.debug, "IOLooper dropped, cost ")] := by decide +kernel

/-- Values of other lengths, or other repetitions, do show. -/
theorem sizes_show : freshText (talk "a" "b" (zeros 20) (zeros 25) (zeros 31)) ≠ freshText (talk "a" "b" (zeros 20) (zeros 25) (zeros 30)) ∧
    freshText (fullPut "a" 1 (zeros 20) ++ fullPut "a" 1 (zeros 20)) ≠ freshText (fullPut "a" 1 (zeros 20) ++ fullPut "b" 1 (zeros 20)) := by
  decide +kernel

theorem alike_talk (k k' : String) {v w x v' w' x' : Bytes} (h : v'.length = v.length) (hw : w'.length = w.length) (hx : x'.length = x.length) :
    Pairwise2 (EvAlike ρ) (talk k k' v w x) (talk (ρ k) (ρ k') v' w' x') :=
  (((((((alike_fullPut k 1 h).append (alike_fullPut k' 1 hw)).append (alike_fullPut k 1 hw)).append (alike_fullPut k 1 hw)).append
    (alike_fullPut k 1 hx)).append (alike_fullPut k 1 hx)).append
    (.cons .clear (.cons (.api _ _) (.cons (.api _ _) (.cons (.api _ _) (.cons (.io _ _ sameOrder_reverse) (.cons (.io _ _ sameOrder_reverse)
      (.cons (.io _ _ sameOrder_reverse) (.cons (.io _ _ sameOrder_reverse) (.cons (.io _ _ sameOrder_reverse) (.cons (.api _ _) (.cons (.api _ _) .nil)))))))))))).append
    (.cons .drop (.cons (.io _ _ sameOrder_reverse) .nil))

theorem talk_fits {k k' : String} {v v' w : Bytes} (h1 : recordSize k 1 v ≤ 64) (h2 : recordSize k' 1 v' ≤ 64) (h3 : recordSize k 1 v' ≤ 64)
    (h4 : recordSize k 1 w ≤ 64) : ∀ e ∈ talk k k' v v' w, e.Fits 64 := by
  intro e he
  simp only [talk, List.mem_append] at he
  have hio : (Ev.io .reverse : Ev Unit).Fits 64 := fun l => List.reverse_perm l
  rcases he with ((((((he | he) | he) | he) | he) | he) | he) | he
  · exact fullPut_fits' h1 e he
  · exact fullPut_fits' h2 e he
  · exact fullPut_fits' h3 e he
  · exact fullPut_fits' h3 e he
  · exact fullPut_fits' h4 e he
  · exact fullPut_fits' h4 e he
  · simp only [clearEvs, List.mem_cons, List.not_mem_nil, or_false] at he
    rcases he with rfl | rfl | rfl | rfl | rfl | rfl | rfl | rfl | rfl | rfl | rfl <;> first | exact hio | trivial
  · simp only [List.mem_cons, List.not_mem_nil, or_false] at he
    rcases he with rfl | rfl <;> first | exact hio | trivial

/-- The hypotheses of `C104_log_sizes_only` for this talk, after a session that stored something. -/
example : ∃ rss d s0 s rs, Life plain 64 Dir.fresh [⟨(), fullPut "a" 1 [1, 2, 3], false⟩] rss d ∧ openAt plain () 64 d.file = some s0 ∧
    run plain s0 (talk "a" "b" (zeros 20) (zeros 25) (zeros 30)) = some (s, rs) ∧ rs.length = 7 ∧
    ∃ d' s0' s', Life plain 64 Dir.fresh [⟨(), fullPut "b" 1 [7, 8, 9], false⟩] rss d' ∧ openAt plain () 64 d'.file = some s0' ∧
      run plain s0' (talk "b" "a" (List.replicate 20 1) (List.replicate 25 2) (List.replicate 30 3)) = some (s', rs) ∧
      openText (plain ()) 64 d'.file ++ runText plain s0' (talk "b" "a" (List.replicate 20 1) (List.replicate 25 2) (List.replicate 30 3)) =
        openText (plain ()) 64 d.file ++ runText plain s0 (talk "a" "b" (zeros 20) (zeros 25) (zeros 30)) := by
  have hc : ((lifeRun 64 (Dir.fresh : Dir Unit).file [⟨(), fullPut "a" 1 [1, 2, 3], false⟩]).bind fun p =>
      (openAt plain () 64 p.2).bind fun s0 => (run plain s0 (talk "a" "b" (zeros 20) (zeros 25) (zeros 30))).map fun q =>
        q.2.length) = some 7 := by decide +kernel
  cases h1 : lifeRun 64 (Dir.fresh : Dir Unit).file [⟨(), fullPut "a" 1 [1, 2, 3], false⟩] with
  | none => rw [h1] at hc; cases hc
  | some p =>
  obtain ⟨rss, f⟩ := p
  obtain ⟨d, hl, rfl⟩ := life_of_lifeRun _ _ _ _ h1
  rw [h1] at hc
  simp only [Option.bind_some] at hc
  cases h2 : openAt plain () 64 d.file with
  | none => rw [h2] at hc; cases hc
  | some s0 =>
  rw [h2] at hc
  simp only [Option.bind_some] at hc
  cases h3 : run plain s0 (talk "a" "b" (zeros 20) (zeros 25) (zeros 30)) with
  | none => rw [h3] at hc; cases hc
  | some q =>
  rw [h3] at hc
  obtain ⟨s, rs⟩ := q
  simp only [Option.map_some, Option.some.injEq] at hc
  have hb : swapAB "a" = "b" ∧ swapAB "b" = "a" := by decide
  have hE := alike_talk (ρ := swapAB) "a" "b" (v := zeros 20) (v' := List.replicate 20 1) (w := zeros 25) (w' := List.replicate 25 2)
    (x := zeros 30) (x' := List.replicate 30 3) (by decide) (by decide) (by decide)
  have hX := alike_fullPut (ρ := swapAB) "a" 1 (bs := [1, 2, 3]) (bs' := [7, 8, 9]) (by decide)
  rw [hb.1, hb.2] at hE
  rw [hb.1] at hX
  have hXs : Pairwise2 (Session.Alike swapAB) [(⟨(), fullPut "a" 1 [1, 2, 3], false⟩ : Session Unit)] [⟨(), fullPut "b" 1 [7, 8, 9], false⟩] := .single ⟨hX, rfl⟩
  refine ⟨rss, d, s0, s, rs, hl, h2, h3, hc, ?_⟩
  obtain ⟨d', s0', s', r1, r2, r3, r4, _⟩ := C104_log_sizes_only (by decide) (by decide) swapAB_renames hXs hE
    (by intro x hx; simp only [List.mem_singleton] at hx; subst hx; exact fullPut_fits' (by decide +kernel))
    (by intro x hx; simp only [List.mem_singleton] at hx; subst hx; exact fullPut_fits' (by decide +kernel))
    (talk_fits (by decide +kernel) (by decide +kernel) (by decide +kernel) (by decide +kernel))
    (talk_fits (by decide +kernel) (by decide +kernel) (by decide +kernel) (by decide +kernel)) (by decide +kernel) hl h2 h3
  exact ⟨d', s0', s', r1, r2, r3, r4⟩

/-- The hypotheses of `C104_log_sizes_only_encrypted`: an overwrite that compacts the file, under two encryption keys and nonces. -/
example : ∃ s0 s rs, openEnc toy 64 testKey nonce1 EncDir.fresh = some s0 ∧
    run (encrypted toy) s0 (encPut (testKeyBytes, nonce1) "a" 1 (zeros 20) ++ encPut (testKeyBytes, nonce1) "a" 1 (zeros 21)) = some (s, rs) ∧
    (∃ d' s0' s', EncLife toy 64 EncDir.fresh [] [] d' ∧ openEnc toy 64 "000102030405060708090A0B0C0D0E0F" (List.replicate 11 5) d' = some s0' ∧
      run (encrypted toy) s0' (encPut ([0, 1, 2, 3, 4, 5, 6, 7, 8, 9, 10, 11, 12, 13, 14, 15], List.replicate 11 5) "b" 1 (List.replicate 20 7) ++
        encPut ([0, 1, 2, 3, 4, 5, 6, 7, 8, 9, 10, 11, 12, 13, 14, 15], List.replicate 11 5) "b" 1 (List.replicate 21 8)) = some (s', rs) ∧
      openText (encrypted toy s0'.idx) 64 d'.file ++ runText (encrypted toy) s0'
          (encPut ([0, 1, 2, 3, 4, 5, 6, 7, 8, 9, 10, 11, 12, 13, 14, 15], List.replicate 11 5) "b" 1 (List.replicate 20 7) ++
            encPut ([0, 1, 2, 3, 4, 5, 6, 7, 8, 9, 10, 11, 12, 13, 14, 15], List.replicate 11 5) "b" 1 (List.replicate 21 8)) =
        openText (encrypted toy s0.idx) 64 EncDir.fresh.file ++ runText (encrypted toy) s0
          (encPut (testKeyBytes, nonce1) "a" 1 (zeros 20) ++ encPut (testKeyBytes, nonce1) "a" 1 (zeros 21))) := by
  obtain ⟨s0, s, rs, h1, _, h3, _⟩ := encOverwrite_meets
  refine ⟨s0, s, rs, h1, h3, ?_⟩
  have hb : swapAB "a" = "b" := by decide
  have hE : Pairwise2 (EvAlike swapAB) (encPut (testKeyBytes, nonce1) "a" 1 (zeros 20) ++ encPut (testKeyBytes, nonce1) "a" 1 (zeros 21))
      (encPut ([0, 1, 2, 3, 4, 5, 6, 7, 8, 9, 10, 11, 12, 13, 14, 15], List.replicate 11 5) "b" 1 (List.replicate 20 7) ++
        encPut ([0, 1, 2, 3, 4, 5, 6, 7, 8, 9, 10, 11, 12, 13, 14, 15], List.replicate 11 5) "b" 1 (List.replicate 21 8)) := by
    have h := (alike_encPut (ρ := swapAB) (testKeyBytes, nonce1) ([0, 1, 2, 3, 4, 5, 6, 7, 8, 9, 10, 11, 12, 13, 14, 15], List.replicate 11 5) "a" 1
      (bs := zeros 20) (bs' := List.replicate 20 7) (by decide)).append
      (alike_encPut (ρ := swapAB) (testKeyBytes, nonce1) ([0, 1, 2, 3, 4, 5, 6, 7, 8, 9, 10, 11, 12, 13, 14, 15], List.replicate 11 5) "a" 1
      (bs := zeros 21) (bs' := List.replicate 21 8) (by decide))
    rwa [hb] at h
  have hfit : ∀ (i : Bytes × Bytes) (k : String) (bs bs' : Bytes), encRecordSize k 1 bs ≤ 64 → encRecordSize k 1 bs' ≤ 64 → i.2.length = nonceLen →
      ∀ e ∈ encPut i k 1 bs ++ encPut i k 1 bs', e.EncFits i.1 64 := by
    intro i k bs bs' h h' hi e he
    rcases List.mem_append.1 he with he | he
    · exact encPut_fits' h hi e he
    · exact encPut_fits' h' hi e he
  obtain ⟨d', s0', s', r1, r2, r3, r4, _⟩ := C104_log_sizes_only_encrypted (by decide) (by decide) swapAB_renames decode_testKey
    (key' := "000102030405060708090A0B0C0D0E0F") (rand := nonce1) (rand' := List.replicate 11 5) (k' := [0, 1, 2, 3, 4, 5, 6, 7, 8, 9, 10, 11, 12, 13, 14, 15]) (by decide +kernel)
    .nil hE ⟨by simp, by simp, by simp⟩ ⟨by simp, by simp, by simp⟩ (by decide) (by decide)
    (hfit (testKeyBytes, nonce1) _ _ _ (by decide +kernel) (by decide +kernel) (by decide))
    (hfit ([0, 1, 2, 3, 4, 5, 6, 7, 8, 9, 10, 11, 12, 13, 14, 15], List.replicate 11 5) _ _ _ (by decide +kernel) (by decide +kernel) (by decide))
    (by decide +kernel) (by decide +kernel) (.nil _) h1 h3
  exact ⟨d', s0', s', r1, r2, r3, r4⟩

end Mmkv.CoreText
