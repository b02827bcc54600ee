import Verif.Props.Size
import Verif.Model.Mapping
/-!
# C56: nothing brings the process down
-/

namespace Mmkv
open Spec Inst
variable {ι : Type}

/-- **C56 is false**: opening a directory whose data file has one to seven bytes ends the whole process - with every codec,
page size and whatever is mapped behind the file: reading the length header panics, and so does the destructor of the
mapping, which reads it again while the first panic unwinds. -/
theorem C56_refuted (sync : Msync) (c : Codec) (page : Nat) (file : Bytes) (h0 : 0 < file.length) (h8 : file.length < 8) :
    openEnding sync c page file = .aborted := by
  have hne : file.length ≠ 0 := by omega
  have hcfg : configNew page file = file := by simp [configNew, hne]
  have hwo : ∀ s : WState, s.mmLen < 8 → s.writeOffset = none := by
    intro s hs
    unfold WState.writeOffset WState.lenOffset
    rw [if_pos hs]
  unfold openEnding openStore
  simp only [hcfg, hne, if_false, WState.readItems, unwindWith, WState.dropReturns]
  rw [hwo _ h8]
  rfl

/-- The hypotheses are met by a file of three bytes. -/
example : openEnding (fun _ _ => true) crcCodec 4096 [1, 2, 3] = .aborted :=
  C56_refuted _ _ _ _ (by decide) (by decide)

theorem dropReturns_bad {sync : Msync} (hb : sync.Bare) {s : WState} (hmm : s.mmLen = s.file.length) (h : BadHeader s.file) :
    s.dropReturns sync = false := by
  obtain ⟨h8, hlt⟩ := h
  unfold WState.dropReturns WState.writeOffset WState.lenOffset
  rw [if_neg (by omega)]
  by_cases hu : s.usizeBytes ≠ 8
  · rw [if_pos hu]
  rw [if_neg hu]
  simp only []
  by_cases h64 : beVal (s.file.take 8) + 8 < 2 ^ 64
  · rw [if_pos h64]
    simp only []
    exact hb _ _ (by omega)
  · rw [if_neg h64]

/-- **C56 is false** for a file whose length header points past its end (such as the one a too large put leaves behind,
`C07_refuted`), when nothing is mapped behind the file: opening the directory ends the process. -/
theorem C56_refuted_header {sync : Msync} (hb : sync.Bare) (page : Nat) {file : Bytes} (h8 : 8 ≤ file.length)
    (hlt : file.length < beVal (file.take 8) + 8) : openEnding sync crcCodec page file = .aborted := by
  have hne : file.length ≠ 0 := by omega
  have hcfg : configNew page file = file := by simp [configNew, hne]
  have hno := openAt_bad ⟨h8, hlt⟩ page
  have ho : openStore crcCodec page file = none := by
    unfold openAt plain at hno
    split at hno
    · assumption
    · cases hno
  unfold openEnding
  rw [ho]
  simp only [hcfg, hne, if_false, unwindWith]
  rw [dropReturns_bad hb (s := WState.mk file file.length page 0 false 8 none []) rfl ⟨h8, hlt⟩]
  rfl

/-- The header says 100, the file has 24 bytes. -/
example : openEnding (fun len n => decide (n ≤ len)) crcCodec 4096 (beBytes 8 100 ++ zeros 16) = .aborted :=
  C56_refuted_header (fun len n h => by simp; omega) _ (by decide) (by decide +kernel)

/-- **C56 is false** for puts: every background write either completes or, if nothing is mapped behind the file, ends the
process - a record that does not fit the free space plus one page always does (when no compaction is due). -/
theorem C56_refuted_write {sync : Msync} (hb : sync.Bare) {s : WState} {items : List (Option Buffer)} (h : AtRest s items)
    {m : Mutation} (hm : Recorded m) (hsz : Sizes s items m) {order : Order} (ho : ∀ l, (order l).Perm l) (dup : Bool) :
    writeEnding sync crcCodec order (bufOf m) dup s ≠ .panicked ∧
    (s.needTrim = false → dup = false → s.file.length + s.page < 8 + header s.file + (recordOf m).length →
      writeEnding sync crcCodec order (bufOf m) dup s = .aborted) := by
  have key : ∀ s', WState.write crcCodec order (bufOf m) dup s = .panic s' → BadHeader s'.file →
      writeEnding sync crcCodec order (bufOf m) dup s = .aborted := by
    intro s' hw hbad
    obtain ⟨n, hg⟩ := grown_write (c := crcCodec) order (bufOf m) dup h.mapped
    rw [hw, Run.state_panic] at hg
    unfold writeEnding unwindWith
    rw [hw]
    simp only []
    rw [dropReturns_bad hb hg.mm hbad]
    rfl
  refine ⟨?_, ?_⟩
  · rcases write_cases h hm hsz ho dup with ⟨s', _, _, _, _, _, h1, _⟩ | ⟨s', h1, h2⟩
    · unfold writeEnding; rw [h1]; simp
    · rw [key s' h1 h2]; simp
  · intro hdue hd hbig
    subst hd
    obtain ⟨s', h1, h2⟩ := C07_refuted_append h hm hsz ho hdue hbig
    rcases write_cases h hm hsz ho false with ⟨s'', _, _, _, _, _, h3, _⟩ | ⟨s'', h3, h4⟩
    · rw [h1] at h3; cases h3
    · exact key s'' h3 h4

theorem dropReturns_valid {sync : Msync} (hs : sync.Sound) {c : Codec} {s : WState} {content : Bytes}
    {items : List (Option Buffer)} (h : Valid c s content items) : s.dropReturns sync = true := by
  unfold WState.dropReturns
  rw [writeOffset_eq h.usz h.mm h.holds]
  exact hs _ _ (by rw [h.mm]; exact h.holds.len)

/-- **C56**, what is true: in any session on a fresh directory whose records are at most a page long, whatever the
interleaving, no event - call, background write, re-creation by `clear_data` - panics or ends the process, and neither
does the destructor of the mapping whenever the background thread stops. -/
theorem C56_partial {sync : Msync} (hsync : sync.Sound) {page : Nat} (h8 : 8 ≤ page) (h32 : page < 2 ^ 32)
    {s0 s s' : Inst Unit} {es : List (Ev Unit)} {e : Ev Unit} {rs : List (Out Unit)} {r : Option (Out Unit)}
    (hopen : openAt plain () page [] = some s0) (hrun : run plain s0 es = some (s, rs)) (hstep : step plain s e = some (s', r))
    (hfit : ∀ x ∈ es ++ [e], x.Fits page) (hroom : page * (calls (es ++ [e])).length + 8 < 2 ^ 64) :
    stepEnding sync plain s e = some .returned ∧ exitEnding sync s = .returned := by
  have hroom' : (plainEnv page h8 False).Room (0 + ([] : List Mutation).length + (calls es).length) := by
    refine plain_room ?_
    have : calls (es ++ [e]) = calls es ++ calls [e] := by simp [calls]
    rw [this, List.length_append] at hroom
    have h1 := Nat.mul_le_mul_left page (Nat.le_add_right (calls es).length (calls [e]).length)
    simp only [List.length_nil, Nat.zero_add]
    omega
  obtain ⟨s1, hs1, hd1, _⟩ := dinv_open (GoodFile.empty (E := plainEnv page h8 False) (c := plain ()) (K := 0))
  have hopen' : openAt plain () page [] = some s1 := hs1
  rw [hopen] at hopen'
  injection hopen' with hopen'
  subst hopen'
  obtain ⟨_, hd⟩ := dinv_run es hd1 (fun e he => (hfit e (List.mem_append_left _ he)).ok h32) hroom' hrun
  have hok : e.Ok (plainEnv page h8 False) := (hfit e (by simp)).ok h32
  obtain ⟨hr, hd'⟩ := dinv_step hd hok (by simpa using hroom') hstep
  constructor
  · have hnp : r ≠ some .panic := fun hx => by have := hr _ hx; cases this
    cases e with
    | put k t bs => simp only [stepEnding, hstep, Option.map_some]
    | delete k => simp only [stepEnding, hstep, Option.map_some]
    | clear => simp only [stepEnding, hstep, Option.map_some]
    | drop => simp only [stepEnding, hstep, Option.map_some]
    | api i =>
      simp only [stepEnding, hstep, Option.map_some]
    | io o =>
      simp only [stepEnding, hstep, Option.map_some]
      split
      · rename_i b dup rest hio hbuf
        unfold writeEnding
        split
        · rfl
        · rename_i w hw
          exfalso
          have := hd'.alive.1
          simp only [step, Looper.ioStep, hio, hbuf, execJob, hw] at hstep
          injection hstep with hstep
          injection hstep with hstep _
          subst hstep
          exact this rfl
      · rfl
  · obtain ⟨_, _, _, content, items, _, _, hw, _, _⟩ := hd.ex
    unfold exitEnding
    rw [dropReturns_valid hsync hw.toValid]
    rfl

/-- Non-vacuity: a session with a compaction, before a background write that happens. -/
example : ∃ s0 s s' rs, openAt plain () 64 [] = some s0 ∧
    run plain s0 (fullPut "a" 1 (List.replicate 20 97) ++ [.put "a" 1 (List.replicate 20 98), .api (), .api (), .io id, .io id]) =
      some (s, rs) ∧ step plain s (.io List.reverse) = some (s', none) ∧ s.lp.io = .run ∧ s.lp.buf.length = 1 := by
  have h : (match openAt plain () 64 [] with
    | none => false
    | some s0 => passes (run plain s0 (fullPut "a" 1 (List.replicate 20 97) ++
        [.put "a" 1 (List.replicate 20 98), .api (), .api (), .io id, .io id])) fun s _ =>
        (match step plain s (.io List.reverse) with | some (_, none) => true | _ => false) &&
          decide (s.lp.io = .run ∧ s.lp.buf.length = 1)) = true := by decide +kernel
  split at h
  · cases h
  rename_i s0 hs0
  obtain ⟨s, rs, h1, h2⟩ := exists_of_passes h
  simp only [Bool.and_eq_true, decide_eq_true_eq] at h2
  obtain ⟨h2, h3, h4⟩ := h2
  split at h2
  · rename_i s' hs'
    exact ⟨s0, s, s', rs, hs0, h1, hs', h3, h4⟩
  · cases h2

/-- End to end: on a fresh store with 64-byte pages a put of 200 bytes returns `Ok`; with nothing mapped behind the file
the background write of it ends the process. -/
theorem C56_refuted_end_to_end : ∃ s rs, fresh64 [.put "k" 6 (List.replicate 200 7), .api (), .api (), .io id, .io id] = some (s, rs) ∧
    rs = [.ok ()] ∧ stepEnding (fun len n => decide (n ≤ len)) plain s (.io id) = some .aborted := by
  have h : passes (fresh64 [.put "k" 6 (List.replicate 200 7), .api (), .api (), .io id, .io id]) (fun s rs =>
      decide (rs = [.ok ()] ∧ stepEnding (fun len n => decide (n ≤ len)) plain s (.io id) = some .aborted)) = true := by
    decide +kernel
  obtain ⟨s, rs, h1, h2⟩ := exists_of_passes h
  simp only [decide_eq_true_eq] at h2
  exact ⟨s, rs, h1, h2.1, h2.2⟩

end Mmkv
