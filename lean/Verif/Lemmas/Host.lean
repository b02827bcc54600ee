import Verif.Model.Host
import Verif.Lemmas.Turns
/-!
# Lemmas on several processes: what happens in a file that no name leads to stays there
-/

namespace Mmkv
open Spec Inst

variable {ι : Type}

/-- A store that is closed for good: its thread has ended. -/
def Inst.Finished (s : Inst ι) : Prop := s.phase = .closed ∧ (s.lp.io = .exited ∨ s.lp.io = .dead)

theorem finished_step {codecs : ι → Codec} {s : Inst ι} (h : s.Finished) (f : Bytes) (e : Ev ι) :
    Inst.step codecs (s.withFile f) e = none := by
  obtain ⟨hp, hi⟩ := h
  have hp' : (s.withFile f).phase = .closed := hp
  have hi' : (s.withFile f).lp.io = .exited ∨ (s.withFile f).lp.io = .dead := hi
  cases e with
  | io o =>
    simp only [Inst.step, Looper.ioStep]
    rcases hi' with hi' | hi' <;> rw [hi']
  | api i => simp only [Inst.step, hp']
  | _ => simp [Inst.step, hp']

/-- The removal flag of a store that clears nothing does not change. -/
theorem calm_removed {codecs : ι → Codec} {s s' : Inst ι} {e : Ev ι} {r : Option (Out Unit)} (h : NoClear s) (he : e ≠ .clear)
    (hs : Inst.step codecs s e = some (s', r)) : s'.lp.cb.removed = s.lp.cb.removed := by
  have hj := h.jobs
  unfold Inst.todo at hj
  simp only [List.mem_append, not_or] at hj
  obtain ⟨⟨hj1, _⟩, _⟩ := hj
  cases e with
  | put k t bs =>
    simp only [Inst.step] at hs
    split at hs
    · cases hs
    simp only [h.poisoned, h.valid, Bool.false_eq_true, if_false, Bool.true_eq_false, Option.some.injEq, Prod.mk.injEq] at hs
    obtain ⟨rfl, rfl⟩ := hs
    rfl
  | delete k =>
    simp only [Inst.step] at hs
    split at hs
    · cases hs
    simp only [h.poisoned, h.valid, Bool.false_eq_true, if_false, Bool.true_eq_false] at hs
    split at hs <;> (simp only [Option.some.injEq, Prod.mk.injEq] at hs; obtain ⟨rfl, rfl⟩ := hs; rfl)
  | clear => exact absurd rfl he
  | drop =>
    simp only [Inst.step] at hs
    split at hs
    · cases hs
    simp only [Option.some.injEq, Prod.mk.injEq] at hs; obtain ⟨rfl, rfl⟩ := hs
    rfl
  | api i =>
    simp only [Inst.step] at hs
    rcases h.phase with hp | ⟨j, hp⟩ | hp | hp <;> rw [hp] at hs <;> simp only [Option.some.injEq, Prod.mk.injEq, reduceCtorEq] at hs
    · obtain ⟨rfl, rfl⟩ := hs
      simp only [Looper.push]
      split <;> rfl
    · obtain ⟨rfl, rfl⟩ := hs
      simp only [Looper.send]
      (repeat split) <;> rfl
  | io o =>
    simp only [Inst.step] at hs
    split at hs
    · cases hs
    rename_i lp hlp
    simp only [Option.some.injEq, Prod.mk.injEq] at hs
    obtain ⟨rfl, rfl⟩ := hs
    unfold Looper.ioStep at hlp
    split at hlp
    · split at hlp
      · injection hlp with hlp; subst hlp; rfl
      · injection hlp with hlp; subst hlp; rfl
      · split at hlp
        · cases hlp
        · injection hlp with hlp; subst hlp; rfl
    · injection hlp with hlp; subst hlp; rfl
    · split at hlp
      · injection hlp with hlp; subst hlp; rfl
      · rename_i j rest hbuf
        rw [hbuf] at hj1
        simp only [List.mem_cons, not_or] at hj1
        cases j with
        | remove => exact absurd rfl hj1.1
        | write b d =>
          simp only [execJob] at hlp
          split at hlp
          · rename_i heq
            split at heq
            · injection heq with heq; injection hlp with hlp; subst hlp heq; rfl
            · cases heq
          · rename_i heq
            split at heq
            · cases heq
            · injection heq with heq; injection hlp with hlp; subst hlp heq; rfl
    · injection hlp with hlp; subst hlp; rfl
    · cases hlp
    · cases hlp

namespace World

/-- The same process, with other bytes in inode `n`. -/
def patch (w : World ι) (n : Nat) (x : Bytes) : World ι := { w with inodes := w.inodes.set n x }

/-- No name leads to inode `n`, and no store of this process that can still do anything is on it. -/
structure Off (w : World ι) (n : Nat) : Prop where
  names : ∀ f, w.names f ≠ some n
  lt : n < w.inodes.length
  objs : ∀ ob ∈ w.objs, ob.inode ≠ n ∨ ob.inst.Finished

theorem patch_handles (w : World ι) (n : Nat) (x : Bytes) : (w.patch n x).handles = w.handles := rfl
theorem patch_objs (w : World ι) (n : Nat) (x : Bytes) : (w.patch n x).objs = w.objs := rfl
theorem patch_poisoned (w : World ι) (n : Nat) (x : Bytes) : (w.patch n x).poisoned = w.poisoned := by cases w; rfl
theorem patch_busy (w : World ι) (n : Nat) (x : Bytes) (h : Nat) : (w.patch n x).busy h = w.busy h := by cases w; rfl
theorem patch_upgrade (w : World ι) (n : Nat) (x : Bytes) (d : String) : (w.patch n x).upgrade d = w.upgrade d := rfl

theorem content_patch (w : World ι) {n m : Nat} (x : Bytes) (h : m ≠ n) : (w.patch n x).content m = w.content m := by
  simp only [content, patch]
  rw [List.getElem?_set_ne (Ne.symm h)]

theorem fileAt_patch {w : World ι} {n : Nat} (x : Bytes) (h : ∀ f, w.names f ≠ some n) (f : Nat) : (w.patch n x).fileAt f = w.fileAt f := by
  simp only [fileAt]
  show (w.names f).map _ = _
  cases hf : w.names f with
  | none => rfl
  | some m => 
    have hm : m ≠ n := by rintro rfl; exact h f hf
    simp only [Option.map_some, content_patch w x hm]

theorem touch_patch {w : World ι} {n : Nat} (x : Bytes) (h : ∀ f, w.names f ≠ some n) (hlt : n < w.inodes.length) (page name : Nat) :
    (w.patch n x).touch page name = ((w.touch page name).1.patch n x, (w.touch page name).2) := by
  unfold touch
  show (match w.names name with | some m => _ | none => _) = _
  cases hf : w.names name with
  | none =>
    simp only [patch, List.length_set, Prod.mk.injEq, and_true]
    congr 1
    rw [List.set_append_left _ _ hlt]
  | some m =>
    have hm : m ≠ n := by rintro rfl; exact h name hf
    simp only [content_patch w x hm]
    simp only [patch, Prod.mk.injEq, and_true]
    congr 1
    rw [List.set_comm _ _ (Ne.symm hm)]

theorem stepObj_patch {S : Sys ι} {w : World ι} {n : Nat} (x : Bytes) (h : w.Off n) (o : Nat) (e : Ev ι) (c : Option Nat) :
    (w.patch n x).stepObj S o e c = (w.stepObj S o e c).map fun p => (p.1.patch n x, p.2) := by
  unfold stepObj
  show (match w.objs[o]? with | none => _ | some ob => _) = _
  cases ho : w.objs[o]? with
  | none => rfl
  | some ob =>
    rcases h.objs ob (List.mem_of_getElem? ho) with hne | hfin
    · simp only [content_patch w x hne]
      cases hs : Inst.step S.codecs (ob.inst.withFile (w.content ob.inode)) e with
      | none => rfl
      | some p =>
        simp only [Option.map_some, Option.some.injEq, Prod.mk.injEq, and_true]
        simp only [patch]
        congr 1
        exact List.set_comm _ _ (Ne.symm hne)
    · simp only [finished_step hfin]
      rfl

theorem reopen_patch {S : Sys ι} {w : World ι} {n : Nat} (x : Bytes) (h : w.Off n) (o : Nat) (ob : Obj ι) (i : ι) :
    (w.patch n x).reopen S o ob i = (w.reopen S o ob i).map fun p => (p.1.patch n x, p.2) := by
  unfold reopen
  rw [fileAt_patch x h.names, touch_patch x h.names h.lt]
  cases (ob.inst.atName (w.fileAt (S.fileOf ob.dir))).reopenStep S i with
  | none => rfl
  | some p => rfl

/-- What a process does that has nothing to do with inode `n` does not depend on what is in it. -/
theorem step_patch {S : Sys ι} {w : World ι} {n : Nat} (x : Bytes) (h : w.Off n) (e : WEv ι) :
    (w.patch n x).step S e = (w.step S e).map fun p => (p.1.patch n x, p.2) := by
  cases e with
  | lookup dir =>
    unfold step
    simp only [patch_poisoned, patch_upgrade]
    by_cases hp : w.poisoned = true
    · rw [if_pos hp, if_pos hp]; rfl
    · rw [if_neg hp, if_neg hp]; cases w.upgrade dir <;> rfl
  | create dir i =>
    unfold step
    simp only [patch_poisoned, patch_upgrade]
    by_cases hp : w.poisoned = true
    · rw [if_pos hp, if_pos hp]; rfl
    · rw [if_neg hp, if_neg hp]
      cases w.upgrade dir with
      | some o => rfl
      | none =>
        simp only [touch_patch x h.names h.lt]
        by_cases hdk : S.dirOk dir = false
        · rw [if_pos hdk, if_pos hdk]; rfl
        · rw [if_neg hdk, if_neg hdk]
          have hc : ((w.touch S.page (S.fileOf dir)).1.patch n x).content (w.touch S.page (S.fileOf dir)).2 =
              (w.touch S.page (S.fileOf dir)).1.content (w.touch S.page (S.fileOf dir)).2 := by
            apply content_patch
            unfold touch
            split
            · rename_i m hm
              intro hmn
              exact h.names _ (by rw [hm]; exact congrArg some hmn)
            · exact Nat.ne_of_gt h.lt
          simp only [hc]
          by_cases hk : S.keyOk i = false
          · rw [if_pos hk, if_pos hk]; rfl
          · rw [if_neg hk, if_neg hk]
            cases openAt S.codecs i S.page ((w.touch S.page (S.fileOf dir)).1.content (w.touch S.page (S.fileOf dir)).2) <;> rfl
  | call hh dir m =>
    unfold step
    simp only [patch_handles]
    cases w.handles[hh]? with
    | none => rfl
    | some hd =>
      simp only [stepObj_patch x h, patch_busy]
      by_cases hc : hd.st ≠ .live ∨ hd.dir ≠ dir ∨ w.busy hh = true
      · rw [if_pos hc, if_pos hc]; rfl
      · rw [if_neg hc, if_neg hc]
        cases w.stepObj S hd.obj (evOf m) (some hh) <;> rfl
  | cont o i =>
    unfold step
    simp only [patch_objs]
    cases w.objs[o]? with
    | none => rfl
    | some ob =>
      simp only [stepObj_patch x h, reopen_patch x h]
      by_cases hc : ob.inst.phase = .clrOpen
      · rw [if_pos hc, if_pos hc]; cases w.reopen S o ob i <;> rfl
      · rw [if_neg hc, if_neg hc]; cases w.stepObj S o (.api i) ob.caller <;> rfl
  | io o ord =>
    unfold step
    simp only [patch_objs]
    cases w.objs[o]? with
    | none => rfl
    | some ob =>
      simp only [stepObj_patch x h]
      cases w.stepObj S o (.io ord) ob.caller <;> rfl
  | drop1 hh =>
    unfold step
    simp only [patch_handles, patch_busy, patch_poisoned]
    cases w.handles[hh]? with
    | none => rfl
    | some hd =>
      simp only []
      by_cases hc : hd.st ≠ .live ∨ w.busy hh = true
      · rw [if_pos hc, if_pos hc]; rfl
      · rw [if_neg hc, if_neg hc]
        by_cases hp : w.poisoned = true
        · rw [if_pos hp, if_pos hp]; rfl
        · rw [if_neg hp, if_neg hp]; rfl
  | drop2 hh =>
    unfold step
    simp only [patch_handles]
    cases w.handles[hh]? with
    | none => rfl
    | some hd =>
      simp only []
      by_cases hc : hd.st ≠ .unlisted
      · rw [if_pos hc, if_pos hc]; rfl
      · rw [if_neg hc, if_neg hc]
        have h' : ({ w with handles := w.handles.set hh { hd with st := .gone } } : World ι).Off n := ⟨h.names, h.lt, h.objs⟩
        by_cases hz : ({ w with handles := w.handles.set hh { hd with st := .gone } } : World ι).strong hd.obj = 0
        · refine (if_pos hz).trans ?_
          rw [if_pos hz]
          refine (congrArg (Option.map _) (stepObj_patch x h' hd.obj .drop none)).trans ?_
          cases ({ w with handles := w.handles.set hh { hd with st := .gone } } : World ι).stepObj S hd.obj .drop none <;> rfl
        · refine (if_neg hz).trans ?_
          rw [if_neg hz]; rfl

theorem off_stepObj {S : Sys ι} {w w' : World ι} {n : Nat} (h : w.Off n) {o : Nat} {e : Ev ι} {c : Option Nat} {r : Option (Out Unit)}
    (hs : w.stepObj S o e c = some (w', r)) : w'.Off n := by
  unfold stepObj at hs
  split at hs
  · cases hs
  rename_i ob ho
  split at hs
  · cases hs
  rename_i s' r' hst
  simp only [Option.some.injEq, Prod.mk.injEq] at hs
  obtain ⟨rfl, rfl⟩ := hs
  rcases h.objs ob (List.mem_of_getElem? ho) with hne | hfin
  · refine ⟨?_, by simpa using h.lt, ?_⟩
    · intro f
      simp only []
      split
      · simp only []
        split
        · simp
        · exact h.names f
      · exact h.names f
    · intro ob' hob'
      rcases List.mem_or_eq_of_mem_set hob' with hob' | rfl
      · exact h.objs _ hob'
      · exact .inl hne
  · rw [finished_step hfin] at hst; cases hst

theorem off_touch {w : World ι} {n : Nat} (h : w.Off n) (page name : Nat) : (w.touch page name).1.Off n ∧ (w.touch page name).2 ≠ n := by
  unfold touch
  split
  · rename_i m hm
    exact ⟨⟨h.names, by simpa using h.lt, h.objs⟩, fun hmn => h.names name (by rw [hm]; exact congrArg some hmn)⟩
  · refine ⟨⟨?_, by simp; have := h.lt; omega, h.objs⟩, Nat.ne_of_gt h.lt⟩
    intro f
    simp only []
    split
    · intro hx; injection hx with hx; exact absurd hx (Nat.ne_of_gt h.lt)
    · exact h.names f

theorem off_step {S : Sys ι} {w w' : World ι} {n : Nat} (h : w.Off n) {e : WEv ι} {r : WRes} (hs : w.step S e = some (w', r)) : w'.Off n := by
  cases e with
  | lookup dir =>
    unfold step at hs
    simp only [] at hs
    split at hs
    · injection hs with hs; cases hs; exact h
    · split at hs <;> (injection hs with hs; cases hs; exact ⟨h.names, h.lt, h.objs⟩)
  | create dir i =>
    unfold step at hs
    simp only [] at hs
    obtain ⟨h1, h2⟩ := off_touch h S.page (S.fileOf dir)
    split at hs
    · injection hs with hs; cases hs; exact h
    split at hs
    · injection hs with hs; cases hs; exact ⟨h.names, h.lt, h.objs⟩
    split at hs
    · injection hs with hs; cases hs; exact ⟨h.names, h.lt, h.objs⟩
    split at hs
    · injection hs with hs; cases hs; exact ⟨h1.names, h1.lt, h1.objs⟩
    split at hs
    · injection hs with hs; cases hs; exact ⟨h1.names, h1.lt, h1.objs⟩
    · injection hs with hs; cases hs
      refine ⟨h1.names, h1.lt, ?_⟩
      intro ob hob
      rcases List.mem_append.1 hob with hob | hob
      · exact h1.objs ob hob
      · simp only [List.mem_singleton] at hob
        subst hob
        exact .inl h2
  | call hh dir m =>
    unfold step at hs
    simp only [] at hs
    split at hs
    · cases hs
    split at hs
    · cases hs
    rename_i hd _ _
    cases hso : w.stepObj S hd.obj (evOf m) (some hh) with
    | none => rw [hso] at hs; cases hs
    | some p =>
      rw [hso] at hs
      simp only [Option.map_some, Option.some.injEq, Prod.mk.injEq] at hs
      obtain ⟨rfl, _⟩ := hs
      exact off_stepObj h hso
  | cont o i =>
    unfold step at hs
    simp only [] at hs
    split at hs
    · cases hs
    rename_i ob _
    split at hs
    · cases hso : w.reopen S o ob i with
      | none => rw [hso] at hs; cases hs
      | some p =>
        rw [hso] at hs
        simp only [Option.map_some, Option.some.injEq, Prod.mk.injEq] at hs
        obtain ⟨rfl, _⟩ := hs
        unfold reopen at hso
        split at hso
        · cases hso
        obtain ⟨h1, h2⟩ := off_touch h S.page (S.fileOf ob.dir)
        simp only [Option.some.injEq] at hso
        subst hso
        refine ⟨h1.names, h1.lt, ?_⟩
        intro ob' hob'
        rcases List.mem_or_eq_of_mem_set hob' with hob' | rfl
        · exact h1.objs _ hob'
        · exact .inl h2
    · cases hso : w.stepObj S o (.api i) ob.caller with
      | none => rw [hso] at hs; cases hs
      | some p =>
        rw [hso] at hs
        simp only [Option.map_some, Option.some.injEq, Prod.mk.injEq] at hs
        obtain ⟨rfl, _⟩ := hs
        exact off_stepObj h hso
  | io o ord =>
    unfold step at hs
    simp only [] at hs
    split at hs
    · cases hs
    rename_i ob _
    cases hso : w.stepObj S o (.io ord) ob.caller with
    | none => rw [hso] at hs; cases hs
    | some p =>
      rw [hso] at hs
      simp only [Option.map_some, Option.some.injEq, Prod.mk.injEq] at hs
      obtain ⟨rfl, _⟩ := hs
      exact off_stepObj h hso
  | drop1 hh =>
    unfold step at hs
    simp only [] at hs
    split at hs
    · cases hs
    split at hs
    · cases hs
    split at hs <;> (injection hs with hs; cases hs; exact ⟨h.names, h.lt, h.objs⟩)
  | drop2 hh =>
    unfold step at hs
    simp only [] at hs
    split at hs
    · cases hs
    rename_i hd _
    split at hs
    · cases hs
    have h' : ({ w with handles := w.handles.set hh { hd with st := .gone } } : World ι).Off n := ⟨h.names, h.lt, h.objs⟩
    split at hs
    · cases hso : ({ w with handles := w.handles.set hh { hd with st := .gone } } : World ι).stepObj S hd.obj .drop none with
      | none => rw [hso] at hs; cases hs
      | some p =>
        rw [hso] at hs
        simp only [Option.map_some, Option.some.injEq, Prod.mk.injEq] at hs
        obtain ⟨rfl, _⟩ := hs
        exact off_stepObj h' hso
    · injection hs with hs; cases hs; exact h'

/-- An event that concerns only store `o`, and is not `clear_data`: the other mutating calls through its handles, their steps, the
steps of its thread, and the closing of its handles. -/
def Concerns (w : World ι) (o : Nat) : WEv ι → Prop
  | .call h _ m => m ≠ .clear ∧ ∀ hd, w.handles[h]? = some hd → hd.obj = o
  | .cont o' _ => o' = o
  | .io o' _ => o' = o
  | .drop1 h => ∀ hd, w.handles[h]? = some hd → hd.obj = o
  | .drop2 h => ∀ hd, w.handles[h]? = some hd → hd.obj = o
  | _ => False

/-- Store `o` of this process is on inode `n`, and is not clearing anything. -/
def On (w : World ι) (o n : Nat) : Prop := ∃ ob, w.objs[o]? = some ob ∧ ob.inode = n ∧ NoClear ob.inst

/-- Which store each handle points to. -/
def targets (w : World ι) : List Nat := w.handles.map (·.obj)

theorem map_obj_set {l : List Handle} {i : Nat} {a b : Handle} (h : l[i]? = some a) (hb : b.obj = a.obj) :
    (l.set i b).map (·.obj) = l.map (·.obj) := by
  obtain ⟨hl, rfl⟩ := List.getElem?_eq_some_iff.1 h
  rw [List.map_set, hb]
  apply List.ext_getElem?
  intro j
  rw [List.getElem?_set]
  split
  · rename_i hij
    subst hij
    simp [hl]
  · rfl

theorem own_stepObj {S : Sys ι} {w w' : World ι} {o n : Nat} (h : w.On o n) {e : Ev ι} (he : e ≠ .clear) {c : Option Nat} {r : Option (Out Unit)}
    (hs : w.stepObj S o e c = some (w', r)) :
    w'.On o n ∧ w'.targets = w.targets ∧ w'.names = w.names ∧ ∃ y, w'.inodes = w.inodes.set n y := by
  obtain ⟨ob, ho, hi, hc⟩ := h
  unfold stepObj at hs
  rw [ho] at hs
  simp only [] at hs
  split at hs
  · cases hs
  rename_i s' r' hst
  simp only [Option.some.injEq, Prod.mk.injEq] at hs
  obtain ⟨rfl, rfl⟩ := hs
  have hc' : NoClear (ob.inst.withFile (w.content ob.inode)) := ⟨hc.valid, hc.poisoned, hc.phase, hc.jobs⟩
  have hrem := calm_removed hc' he hst
  have hrem' : s'.lp.cb.removed = ob.inst.lp.cb.removed := hrem
  refine ⟨⟨_, List.getElem?_set_self (List.getElem?_eq_some_iff.1 ho).1, hi, calm_step hc' he hst⟩, rfl, ?_, ⟨_, by rw [hi]⟩⟩
  simp only []
  rw [if_neg]
  rw [hrem']
  rintro ⟨a, b⟩
  rw [a] at b
  cases b

theorem own_step {S : Sys ι} {w w' : World ι} {o n : Nat} (h : w.On o n) {e : WEv ι} (he : w.Concerns o e) {r : WRes}
    (hs : w.step S e = some (w', r)) :
    w'.On o n ∧ w'.targets = w.targets ∧ w'.names = w.names ∧ ∃ y, w'.inodes = w.inodes.set n y := by
  obtain ⟨ob0, ho0, hi0, hc0⟩ := id h
  have hself : ∃ y, w.inodes = w.inodes.set n y := by
    refine ⟨w.inodes[n]?.getD [], ?_⟩
    rcases Nat.lt_or_ge n w.inodes.length with hl | hl
    · rw [List.getElem?_eq_getElem hl]; simp
    · rw [List.set_eq_of_length_le hl]
  cases e with
  | lookup dir => exact he.elim
  | create dir i => exact he.elim
  | call hh dir m =>
    obtain ⟨hm, ht⟩ := he
    unfold step at hs
    simp only [] at hs
    split at hs
    · cases hs
    rename_i hd hhd
    split at hs
    · cases hs
    rw [ht hd hhd] at hs
    cases hso : w.stepObj S o (evOf m) (some hh) with
    | none => rw [hso] at hs; cases hs
    | some p =>
      rw [hso] at hs
      simp only [Option.map_some, Option.some.injEq, Prod.mk.injEq] at hs
      obtain ⟨rfl, _⟩ := hs
      exact own_stepObj h (by cases m <;> simp [evOf] at hm ⊢) hso
  | cont o' i =>
    cases he
    unfold step at hs
    simp only [ho0] at hs
    rw [if_neg (by rcases hc0.phase with hp | ⟨j, hp⟩ | hp | hp <;> rw [hp] <;> simp)] at hs
    cases hso : w.stepObj S o (.api i) ob0.caller with
    | none => rw [hso] at hs; cases hs
    | some p =>
      rw [hso] at hs
      simp only [Option.map_some, Option.some.injEq, Prod.mk.injEq] at hs
      obtain ⟨rfl, _⟩ := hs
      exact own_stepObj h (by simp) hso
  | io o' ord =>
    cases he
    unfold step at hs
    simp only [ho0] at hs
    cases hso : w.stepObj S o (.io ord) ob0.caller with
    | none => rw [hso] at hs; cases hs
    | some p =>
      rw [hso] at hs
      simp only [Option.map_some, Option.some.injEq, Prod.mk.injEq] at hs
      obtain ⟨rfl, _⟩ := hs
      exact own_stepObj h (by simp) hso
  | drop1 hh =>
    unfold step at hs
    simp only [] at hs
    split at hs
    · cases hs
    rename_i hd hhd
    split at hs
    · cases hs
    have htg : (w.handles.set hh { hd with st := .unlisted }).map (·.obj) = w.handles.map (·.obj) := by
      exact map_obj_set hhd rfl
    split at hs <;> (injection hs with hs; cases hs; exact ⟨⟨ob0, ho0, hi0, hc0⟩, htg, rfl, hself⟩)
  | drop2 hh =>
    unfold step at hs
    simp only [] at hs
    split at hs
    · cases hs
    rename_i hd hhd
    split at hs
    · cases hs
    have htg : (w.handles.set hh { hd with st := .gone }).map (·.obj) = w.handles.map (·.obj) := by
      exact map_obj_set hhd rfl
    split at hs
    · have hobj := he hd hhd
      cases hso : ({ w with handles := w.handles.set hh { hd with st := .gone } } : World ι).stepObj S hd.obj .drop none with
      | none => rw [hso] at hs; cases hs
      | some p =>
        rw [hso] at hs
        simp only [Option.map_some, Option.some.injEq, Prod.mk.injEq] at hs
        obtain ⟨rfl, _⟩ := hs
        subst hobj
        obtain ⟨a, b, c, d⟩ := own_stepObj (w := { w with handles := w.handles.set hh { hd with st := .gone } }) ⟨ob0, ho0, hi0, hc0⟩ (by simp) hso
        exact ⟨a, b.trans htg, c, d⟩
    · injection hs with hs; cases hs; exact ⟨⟨ob0, ho0, hi0, hc0⟩, htg, rfl, hself⟩

end World

/-! ### What never changes in a writer -/

/-- Page size, width of `usize` and quota are the same. -/
def WState.Same (s t : WState) : Prop := t.page = s.page ∧ t.usizeBytes = s.usizeBytes ∧ t.quota = s.quota

namespace WState

theorem Same.refl (s : WState) : Same s s := ⟨rfl, rfl, rfl⟩
theorem Same.trans {s t u : WState} (h : Same s t) (g : Same t u) : Same s u := ⟨g.1.trans h.1, g.2.1.trans h.2.1, g.2.2.trans h.2.2⟩

theorem same_andThen {s : WState} {r : Run WState} {f : WState → Run WState} (h : Same s r.state)
    (hf : ∀ t, Same s t → Same s (f t).state) : Same s (r.andThen f).state := by
  cases r with
  | done t => exact hf t h
  | panic t => exact h

theorem same_store (s : WState) (off : Nat) (bs : Bytes) : Same s (s.store off bs).state := by
  unfold store; split <;> exact ⟨rfl, rfl, rfl⟩

theorem same_storeLen (s : WState) (n : Nat) : Same s (s.storeLen n).state := by
  unfold storeLen
  split
  · exact .refl _
  · exact same_store ..

theorem same_append (s : WState) (bs : Bytes) : Same s (s.append bs).state := by
  unfold append
  split
  · exact .refl _
  · exact same_andThen (same_storeLen ..) fun t ht => ht.trans (same_store ..)

theorem same_expand (s : WState) : Same s s.expand.state := by
  unfold expand
  simp only []
  split <;> exact ⟨rfl, rfl, rfl⟩

theorem same_trimLoop (c : Codec) (maxLen : Nat) : ∀ (bs : List Buffer) (s : WState), Same s (trimLoop c maxLen bs s).state := by
  intro bs
  induction bs with
  | nil => intro s; exact .refl _
  | cons b bs ih =>
    intro s
    unfold trimLoop
    split
    · exact .refl _
    split
    · exact .refl _
    refine same_andThen (same_andThen (same_andThen ?_ fun t ht => ht.trans (same_append ..)) fun t ht => ht.trans ⟨rfl, rfl, rfl⟩)
      fun t ht => ht.trans (ih t)
    split
    · exact same_expand _
    · exact .refl _

theorem same_write (c : Codec) (order : List Buffer → List Buffer) (b : Buffer) (dup : Bool) (s : WState) :
    Same s (s.write c order b dup).state := by
  unfold write
  split
  · exact .refl _
  split
  · exact .refl _
  simp only []
  generalize hs0 : (if dup = true then ({ s with needTrim := true } : WState) else s) = s0
  have h0 : Same s s0 := by rw [← hs0]; split <;> exact ⟨rfl, rfl, rfl⟩
  split
  · exact same_andThen (h0.trans (same_append ..)) fun t ht => ht.trans ⟨rfl, rfl, rfl⟩
  split
  · split
    · exact h0
    · refine same_andThen (same_andThen (h0.trans (same_storeLen ..)) fun t ht => ?_) fun t ht => ht.trans ⟨rfl, rfl, rfl⟩
      exact (ht.trans ⟨rfl, rfl, rfl⟩).trans (same_trimLoop ..)
  · exact same_andThen (same_andThen (h0.trans (same_expand _)) fun t ht => ht.trans (same_append ..)) fun t ht => ht.trans ⟨rfl, rfl, rfl⟩

end WState

/-- The writer has this page size, an eight-byte `usize` and no quota. -/
def Inst.Fixed (page : Nat) (s : Inst ι) : Prop := s.lp.cb.ws.page = page ∧ s.lp.cb.ws.usizeBytes = 8 ∧ s.lp.cb.ws.quota = none

theorem fixed_open {codecs : ι → Codec} {i : ι} {page : Nat} {file : Bytes} {s : Inst ι} (h : openAt codecs i page file = some s) :
    s.Fixed page := by
  unfold openAt at h
  split at h
  · cases h
  rename_i o ho
  injection h with h
  subst h
  unfold openStore at ho
  simp only [] at ho
  split at ho
  · cases ho
  split at ho
  · cases ho
  · injection ho with ho
    subst ho
    exact ⟨rfl, rfl, rfl⟩

theorem fixed_step {codecs : ι → Codec} {page : Nat} {s s' : Inst ι} {e : Ev ι} {r : Option (Out Unit)} (h : s.Fixed page)
    (hs : Inst.step codecs s e = some (s', r)) : s'.Fixed page := by
  obtain ⟨h1, h2, h3⟩ := h
  cases e with
  | put k t bs =>
    simp only [Inst.step] at hs
    (repeat' split at hs) <;> first | (cases hs; done) | (simp only [Option.some.injEq, Prod.mk.injEq] at hs; obtain ⟨rfl, _⟩ := hs; exact ⟨h1, h2, h3⟩)
  | delete k =>
    simp only [Inst.step] at hs
    (repeat' split at hs) <;> first | (cases hs; done) | (simp only [Option.some.injEq, Prod.mk.injEq] at hs; obtain ⟨rfl, _⟩ := hs; exact ⟨h1, h2, h3⟩)
  | clear =>
    simp only [Inst.step] at hs
    (repeat' split at hs) <;> first | (cases hs; done) | (simp only [Option.some.injEq, Prod.mk.injEq] at hs; obtain ⟨rfl, _⟩ := hs; exact ⟨h1, h2, h3⟩)
  | drop =>
    simp only [Inst.step] at hs
    (repeat' split at hs) <;> first | (cases hs; done) | (simp only [Option.some.injEq, Prod.mk.injEq] at hs; obtain ⟨rfl, _⟩ := hs; exact ⟨h1, h2, h3⟩)
  | io o =>
    simp only [Inst.step] at hs
    split at hs
    · cases hs
    rename_i lp hlp
    simp only [Option.some.injEq, Prod.mk.injEq] at hs
    obtain ⟨rfl, rfl⟩ := hs
    unfold Looper.ioStep at hlp
    have hjob : ∀ j cb, (execJob (codecs s.idx) o j s.lp.cb).state = cb → cb.ws.page = page ∧ cb.ws.usizeBytes = 8 ∧ cb.ws.quota = none := by
      intro j cb hcb
      cases j with
      | remove => simp only [execJob, Run.state] at hcb; subst hcb; exact ⟨h1, h2, h3⟩
      | write b d =>
        have hsame := WState.same_write (codecs s.idx) o b d s.lp.cb.ws
        simp only [execJob] at hcb
        split at hcb <;> (rename_i heq; rw [heq] at hsame; simp only [Run.state] at hcb hsame; subst hcb)
        · exact ⟨hsame.1.trans h1, hsame.2.1.trans h2, hsame.2.2.trans h3⟩
        · exact ⟨hsame.1.trans h1, hsame.2.1.trans h2, hsame.2.2.trans h3⟩
    split at hlp
    · split at hlp
      · injection hlp with hlp; subst hlp; exact ⟨h1, h2, h3⟩
      · injection hlp with hlp; subst hlp; exact ⟨h1, h2, h3⟩
      · split at hlp
        · cases hlp
        · injection hlp with hlp; subst hlp; exact ⟨h1, h2, h3⟩
    · injection hlp with hlp; subst hlp; exact ⟨h1, h2, h3⟩
    · split at hlp
      · injection hlp with hlp; subst hlp; exact ⟨h1, h2, h3⟩
      · split at hlp <;> (rename_i heq; injection hlp with hlp; subst hlp; exact hjob _ _ (congrArg Run.state heq))
    · injection hlp with hlp; subst hlp; exact ⟨h1, h2, h3⟩
    · cases hlp
    · cases hlp
  | api i =>
    simp only [Inst.step] at hs
    split at hs
    · cases hs
    · cases hs
    · simp only [Option.some.injEq, Prod.mk.injEq] at hs
      obtain ⟨rfl, rfl⟩ := hs
      simp only [Fixed, Looper.push]
      split <;> exact ⟨h1, h2, h3⟩
    · simp only [Option.some.injEq, Prod.mk.injEq] at hs
      obtain ⟨rfl, rfl⟩ := hs
      simp only [Fixed, Looper.send]
      (repeat' split) <;> exact ⟨h1, h2, h3⟩
    · simp only [Option.some.injEq, Prod.mk.injEq] at hs
      obtain ⟨rfl, rfl⟩ := hs
      simp only [Fixed, Looper.push]
      split <;> exact ⟨h1, h2, h3⟩
    · have hx : (Looper.send s.lp).1.cb = s.lp.cb := by unfold Looper.send; (repeat' split) <;> rfl
      split at hs <;> (simp only [Option.some.injEq, Prod.mk.injEq] at hs; obtain ⟨rfl, rfl⟩ := hs; simp only [Fixed, hx]; exact ⟨h1, h2, h3⟩)
    · have hx : (Looper.quitSend s.lp).1.cb = s.lp.cb := by unfold Looper.quitSend; (repeat' split) <;> rfl
      split at hs <;> (simp only [Option.some.injEq, Prod.mk.injEq] at hs; obtain ⟨rfl, rfl⟩ := hs; simp only [Fixed, hx]; exact ⟨h1, h2, h3⟩)
    · (repeat' split at hs) <;> first | (cases hs; done) | (simp only [Option.some.injEq, Prod.mk.injEq] at hs; obtain ⟨rfl, _⟩ := hs; exact ⟨h1, h2, h3⟩)
    · simp only [h1, h2, h3] at hs
      split at hs
      · simp only [Option.some.injEq, Prod.mk.injEq] at hs; obtain ⟨rfl, _⟩ := hs; exact ⟨h1, h2, h3⟩
      · rename_i s1 ho
        have hf := fixed_open ho
        (repeat' split at hs) <;> first | (cases hs; done) | (simp only [Option.some.injEq, Prod.mk.injEq] at hs; obtain ⟨rfl, _⟩ := hs; exact hf)

namespace World

/-- Names lead to existing files and all writers have the page size of the system. -/
structure Sane (S : Sys ι) (w : World ι) : Prop where
  names : ∀ f n, w.names f = some n → n < w.inodes.length
  objs : ∀ ob ∈ w.objs, ob.inst.Fixed S.page

theorem sane_stepObj {S : Sys ι} {w w' : World ι} (h : w.Sane S) {o : Nat} {e : Ev ι} {c : Option Nat} {r : Option (Out Unit)}
    (hs : w.stepObj S o e c = some (w', r)) : w'.Sane S ∧ w'.inodes.length = w.inodes.length := by
  unfold stepObj at hs
  split at hs
  · cases hs
  rename_i ob ho
  split at hs
  · cases hs
  rename_i s' r' hst
  simp only [Option.some.injEq, Prod.mk.injEq] at hs
  obtain ⟨rfl, rfl⟩ := hs
  refine ⟨⟨?_, ?_⟩, by simp⟩
  · intro f n hn
    simp only [List.length_set]
    simp only [] at hn
    split at hn
    · simp only [] at hn
      split at hn
      · cases hn
      · exact h.names f n hn
    · exact h.names f n hn
  · intro ob' hob'
    rcases List.mem_or_eq_of_mem_set hob' with hob' | rfl
    · exact h.objs _ hob'
    · exact fixed_step (s := ob.inst.withFile (w.content ob.inode)) (h.objs ob (List.mem_of_getElem? ho)) hst

theorem sane_touch {S : Sys ι} {w : World ι} (h : w.Sane S) (name : Nat) : (w.touch S.page name).1.Sane S ∧
    w.inodes.length ≤ (w.touch S.page name).1.inodes.length ∧ (w.touch S.page name).1.names name = some (w.touch S.page name).2 ∧
    (w.touch S.page name).1.content (w.touch S.page name).2 = configNew S.page ((w.fileAt name).getD []) := by
  unfold touch
  split
  · rename_i m hm
    refine ⟨⟨by simpa using h.names, h.objs⟩, by simp, hm, ?_⟩
    simp only [content, fileAt, hm, Option.map_some, Option.getD_some]
    rw [List.getElem?_set_self (h.names _ _ hm)]
    rfl
  · rename_i hm
    refine ⟨⟨?_, h.objs⟩, by simp, by simp, ?_⟩
    · intro f n hn
      simp only [List.length_append, List.length_singleton]
      simp only [] at hn
      split at hn
      · injection hn with hn; omega
      · have := h.names f n hn; omega
    · simp [content, fileAt, hm]

theorem sane_step {S : Sys ι} {w w' : World ι} (h : w.Sane S) {e : WEv ι} {r : WRes} (hs : w.step S e = some (w', r)) :
    w'.Sane S ∧ w.inodes.length ≤ w'.inodes.length := by
  cases e with
  | lookup dir =>
    unfold step at hs
    simp only [] at hs
    split at hs
    · injection hs with hs; cases hs; exact ⟨h, Nat.le_refl _⟩
    · split at hs <;> (injection hs with hs; cases hs; exact ⟨⟨h.names, h.objs⟩, Nat.le_refl _⟩)
  | create dir i =>
    unfold step at hs
    simp only [] at hs
    obtain ⟨h1, h2, _⟩ := sane_touch h (S.fileOf dir)
    split at hs
    · injection hs with hs; cases hs; exact ⟨h, Nat.le_refl _⟩
    split at hs
    · injection hs with hs; cases hs; exact ⟨⟨h.names, h.objs⟩, Nat.le_refl _⟩
    split at hs
    · injection hs with hs; cases hs; exact ⟨⟨h.names, h.objs⟩, Nat.le_refl _⟩
    split at hs
    · injection hs with hs; cases hs; exact ⟨⟨h1.names, h1.objs⟩, h2⟩
    split at hs
    · injection hs with hs; cases hs; exact ⟨⟨h1.names, h1.objs⟩, h2⟩
    · rename_i s hos
      injection hs with hs; cases hs
      refine ⟨⟨h1.names, ?_⟩, h2⟩
      intro ob hob
      rcases List.mem_append.1 hob with hob | hob
      · exact h1.objs ob hob
      · simp only [List.mem_singleton] at hob
        subst hob
        exact fixed_open hos
  | call hh dir m =>
    unfold step at hs
    simp only [] at hs
    split at hs
    · cases hs
    split at hs
    · cases hs
    rename_i hd _ _
    cases hso : w.stepObj S hd.obj (evOf m) (some hh) with
    | none => rw [hso] at hs; cases hs
    | some p =>
      rw [hso] at hs
      simp only [Option.map_some, Option.some.injEq, Prod.mk.injEq] at hs
      obtain ⟨rfl, _⟩ := hs
      exact ⟨(sane_stepObj h hso).1, Nat.le_of_eq (sane_stepObj h hso).2.symm⟩
  | cont o i =>
    unfold step at hs
    simp only [] at hs
    split at hs
    · cases hs
    rename_i ob hob
    split at hs
    · cases hso : w.reopen S o ob i with
      | none => rw [hso] at hs; cases hs
      | some p =>
        rw [hso] at hs
        simp only [Option.map_some, Option.some.injEq, Prod.mk.injEq] at hs
        obtain ⟨rfl, _⟩ := hs
        unfold reopen at hso
        split at hso
        · cases hso
        rename_i s' r' hre
        obtain ⟨h1, h2, _⟩ := sane_touch h (S.fileOf ob.dir)
        simp only [Option.some.injEq] at hso
        subst hso
        have hfx : (ob.inst.atName (w.fileAt (S.fileOf ob.dir))).Fixed S.page := h.objs ob (List.mem_of_getElem? hob)
        have hs' : s'.Fixed S.page := by
          unfold Inst.reopenStep at hre
          split at hre
          · simp only [Option.some.injEq, Prod.mk.injEq] at hre
            obtain ⟨rfl, _⟩ := hre
            exact hfx
          · exact fixed_step hfx hre
        refine ⟨⟨h1.names, ?_⟩, h2⟩
        intro ob' hob'
        rcases List.mem_or_eq_of_mem_set hob' with hob' | rfl
        · exact h1.objs _ hob'
        · exact hs'
    · cases hso : w.stepObj S o (.api i) ob.caller with
      | none => rw [hso] at hs; cases hs
      | some p =>
        rw [hso] at hs
        simp only [Option.map_some, Option.some.injEq, Prod.mk.injEq] at hs
        obtain ⟨rfl, _⟩ := hs
        exact ⟨(sane_stepObj h hso).1, Nat.le_of_eq (sane_stepObj h hso).2.symm⟩
  | io o ord =>
    unfold step at hs
    simp only [] at hs
    split at hs
    · cases hs
    rename_i ob _
    cases hso : w.stepObj S o (.io ord) ob.caller with
    | none => rw [hso] at hs; cases hs
    | some p =>
      rw [hso] at hs
      simp only [Option.map_some, Option.some.injEq, Prod.mk.injEq] at hs
      obtain ⟨rfl, _⟩ := hs
      exact ⟨(sane_stepObj h hso).1, Nat.le_of_eq (sane_stepObj h hso).2.symm⟩
  | drop1 hh =>
    unfold step at hs
    simp only [] at hs
    split at hs
    · cases hs
    split at hs
    · cases hs
    split at hs <;> (injection hs with hs; cases hs; exact ⟨⟨h.names, h.objs⟩, Nat.le_refl _⟩)
  | drop2 hh =>
    unfold step at hs
    simp only [] at hs
    split at hs
    · cases hs
    rename_i hd _
    split at hs
    · cases hs
    have h' : ({ w with handles := w.handles.set hh { hd with st := .gone } } : World ι).Sane S := ⟨h.names, h.objs⟩
    split at hs
    · cases hso : ({ w with handles := w.handles.set hh { hd with st := .gone } } : World ι).stepObj S hd.obj .drop none with
      | none => rw [hso] at hs; cases hs
      | some p =>
        rw [hso] at hs
        simp only [Option.map_some, Option.some.injEq, Prod.mk.injEq] at hs
        obtain ⟨rfl, _⟩ := hs
        exact ⟨(sane_stepObj h' hso).1, Nat.le_of_eq (sane_stepObj h' hso).2.symm⟩
    · injection hs with hs; cases hs; exact ⟨h', Nat.le_refl _⟩

end World

/-- All processes are sane. -/
structure Host.Sane (S : Sys ι) (h : Host ι) : Prop where
  names : ∀ f n, h.names f = some n → n < h.inodes.length
  objs : ∀ (p : Nat) (w : World ι), h.procs[p]? = some (some w) → ∀ ob ∈ w.objs, ob.inst.Fixed S.page

theorem host_sane_step {S : Sys ι} {h h' : Host ι} (hs : h.Sane S) {e : HostEv ι} {r : Option (Nat × WRes)} (hst : Host.step S h e = some (h', r)) :
    h'.Sane S := by
  cases e with
  | spawn =>
    simp only [Host.step, Option.some.injEq, Prod.mk.injEq] at hst
    obtain ⟨rfl, _⟩ := hst
    refine ⟨hs.names, ?_⟩
    intro p w hw
    rw [List.getElem?_append] at hw
    split at hw
    · exact hs.objs p w hw
    · rw [List.getElem?_singleton] at hw
      split at hw
      · simp only [Option.some.injEq] at hw
        subst hw
        simp [World.start]
      · cases hw
  | kill p =>
    simp only [Host.step] at hst
    split at hst
    · simp only [Option.some.injEq, Prod.mk.injEq] at hst
      obtain ⟨rfl, _⟩ := hst
      refine ⟨hs.names, ?_⟩
      intro p' w hw
      rw [List.getElem?_set] at hw
      split at hw
      · split at hw <;> cases hw
      · exact hs.objs p' w hw
    · cases hst
  | on p e =>
    simp only [Host.step] at hst
    split at hst
    · rename_i w hw
      split at hst
      · cases hst
      rename_i w' r' hws
      simp only [Option.some.injEq, Prod.mk.injEq] at hst
      obtain ⟨rfl, _⟩ := hst
      obtain ⟨h1, _⟩ := World.sane_step (w := w.withFs h.names h.inodes) ⟨hs.names, hs.objs p w hw⟩ hws
      refine ⟨h1.names, ?_⟩
      intro p' v hv
      rw [List.getElem?_set] at hv
      split at hv
      · split at hv
        · simp only [Option.some.injEq] at hv
          subst hv
          exact h1.objs
        · cases hv
      · exact hs.objs p' v hv
    · cases hst

theorem host_sane {S : Sys ι} : ∀ (es : List (HostEv ι)) {h h' : Host ι} {rs : List (Nat × WRes)}, h.Sane S →
    Host.run S h es = some (h', rs) → h'.Sane S := by
  intro es
  induction es with
  | nil =>
    intro h h' rs hs hr
    simp only [Host.run, Option.some.injEq, Prod.mk.injEq] at hr
    obtain ⟨rfl, _⟩ := hr
    exact hs
  | cons e es ih =>
    intro h h' rs hs hr
    simp only [Host.run] at hr
    split at hr
    · cases hr
    rename_i g r hst
    split at hr
    · cases hr
    rename_i g2 rs2 hrun
    simp only [Option.some.injEq, Prod.mk.injEq] at hr
    obtain ⟨rfl, _⟩ := hr
    exact ih (host_sane_step hs hst) hrun

end Mmkv
