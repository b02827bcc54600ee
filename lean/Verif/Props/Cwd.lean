import Verif.Model.Cwd
import Verif.Props.Process
/-!
# C97: relative directories and a working directory that changes
-/

namespace Mmkv
open Spec World
variable {ι : Type}

/-! ### The specification -/

/-- The string `d` names the same directory from `c` as from `c0`. -/
def Places.Same (P : Places ι) (c0 c d : String) : Prop := P.fileOf c d = P.fileOf c0 d ∧ P.dirOk c d = P.dirOk c0 d

/-- What the program asks of its author: while the library looks a string up - a `MMKV::new` that opens it, a `clear_data` - the string
names what it named from `c0`, and no `clear_data` on a string that then names something else is under way at a `chdir`. -/
def Steady (P : Places ι) (c0 : String) (s : Roaming ι) : CEv ι → Prop
  | .chdir c => ∀ (o : Nat) (ob : Obj ι), s.w.objs[o]? = some ob → ob.inst.phase.clearing = true → P.Same c0 c ob.dir
  | .act (.create d _) => P.Same c0 s.cwd d
  | .act (.call _ d .clear) => P.Same c0 s.cwd d
  | _ => True

/-- Along a history. -/
def SteadyRun (P : Places ι) (c0 : String) : Roaming ι → List (CEv ι) → Prop
  | _, [] => True
  | s, e :: es => Steady P c0 s e ∧ ∀ s' r, Roaming.step P s e = some (s', r) → SteadyRun P c0 s' es

/-- The events of the library in a history. -/
def libEvents (es : List (CEv ι)) : List (WEv ι) := es.filterMap fun | .act e => some e | .chdir _ => none

/-! ### Removals happen during `clear_data` only -/

/-- A removal job waits only while a `clear_data` does, or its thread has ended. -/
structure Inst.Tame (s : Inst ι) : Prop where
  pend : .remove ∈ s.lp.queue ∨ .remove ∈ s.lp.buf →
    (s.phase = .clrSend ∨ s.phase = .clrQuit ∨ s.phase = .clrJoin) ∨ s.lp.io = .exited ∨ s.lp.io = .dead
  push : ∀ j, s.phase = .push j → j ≠ .remove
  sender : s.valid = true → s.phase ≠ .closed → s.lp.sender = true
  clr : s.phase = .clrPush ∨ s.phase = .clrSend → s.lp.sender = true
  inval : s.phase.clearing = true → s.valid = false

theorem Inst.Tame.open {codecs : ι → Codec} {i : ι} {page u : Nat} {q : Option Nat} {file : Bytes} {s : Inst ι}
    (h : openAt codecs i page file u q = some s) : s.Tame := by
  unfold openAt at h
  split at h
  · cases h
  injection h with h; subst h
  exact ⟨by simp [Looper.new], by simp, by simp [Looper.new], by simp, by simp [Phase.clearing]⟩

theorem Inst.Tame.io {codecs : ι → Codec} {s s' : Inst ι} {o : Order} {r : Option (Out Unit)} (h : s.Tame)
    (hst : Inst.step codecs s (.io o) = some (s', r)) :
    s'.Tame ∧ (s.lp.cb.removed = false → s'.lp.cb.removed = true → s.phase.clearing = true) := by
  simp only [Inst.step] at hst
  split at hst
  · cases hst
  rename_i lp hlp
  injection hst with hst; injection hst with h1 h2; subst h1
  obtain ⟨g1, g2, g3, g4, g5⟩ := h
  unfold Looper.ioStep at hlp
  split at hlp
  · -- recv
    rename_i hio
    split at hlp
    · injection hlp with hlp; subst hlp
      refine ⟨⟨fun h => ?_, g2, g3, g4, g5⟩, fun a b => by simp_all⟩
      rcases g1 h with h | h | h
      · exact .inl h
      · simp [hio] at h
      · simp [hio] at h
    · injection hlp with hlp; subst hlp
      exact ⟨⟨fun h => .inr (.inl rfl), g2, g3, g4, g5⟩, fun a b => by simp_all⟩
    · split at hlp
      · cases hlp
      · injection hlp with hlp; subst hlp
        exact ⟨⟨fun h => .inr (.inl rfl), g2, g3, g4, g5⟩, fun a b => by simp_all⟩
  · -- swap
    rename_i hio
    injection hlp with hlp; subst hlp
    refine ⟨⟨fun h => ?_, g2, g3, g4, g5⟩, fun a b => by simp_all⟩
    rcases g1 h.symm with h | h | h
    · exact .inl h
    · simp [hio] at h
    · simp [hio] at h
  · -- run
    rename_i hio
    split at hlp
    · injection hlp with hlp; subst hlp
      refine ⟨⟨fun h => ?_, g2, g3, g4, g5⟩, fun a b => by simp_all⟩
      rcases g1 h with h | h | h
      · exact .inl h
      · simp [hio] at h
      · simp [hio] at h
    · rename_i j rest hb
      have hp : .remove ∈ s.lp.queue ∨ .remove ∈ rest → s.phase = .clrSend ∨ s.phase = .clrQuit ∨ s.phase = .clrJoin := by
        intro h
        rcases g1 (by rw [hb]; rcases h with h | h; exact .inl h; exact .inr (.tail _ h)) with h | h | h
        · exact h
        · simp [hio] at h
        · simp [hio] at h
      have hj : j = .remove → s.phase.clearing = true := by
        rintro rfl
        rcases g1 (by rw [hb]; simp) with h | h | h
        · rcases h with h | h | h <;> simp [h, Phase.clearing]
        · simp [hio] at h
        · simp [hio] at h
      split at hlp
      · rename_i cb hx
        injection hlp with hlp; subst hlp
        refine ⟨⟨fun h => .inl (hp h), g2, g3, g4, g5⟩, fun a b => ?_⟩
        cases j with
        | remove => exact hj rfl
        | write b' dup =>
          simp only [execJob] at hx
          split at hx
          · injection hx with hx; subst hx; simp_all
          · cases hx
      · rename_i cb hx
        injection hlp with hlp; subst hlp
        refine ⟨⟨fun h => .inl (hp h), g2, g3, g4, g5⟩, fun a b => ?_⟩
        cases j with
        | remove => exact hj rfl
        | write b' dup =>
          simp only [execJob] at hx
          split at hx
          · cases hx
          · injection hx with hx; subst hx; simp_all
  · injection hlp with hlp; subst hlp
    exact ⟨⟨fun h => .inr (.inr rfl), g2, g3, g4, g5⟩, fun a b => by simp_all⟩
  · cases hlp
  · cases hlp

theorem Inst.Tame.step {codecs : ι → Codec} {s s' : Inst ι} {e : Ev ι} {r : Option (Out Unit)} (h : s.Tame)
    (hst : Inst.step codecs s e = some (s', r)) :
    s'.Tame ∧ ((∀ i, e = .api i → s.phase ≠ .clrOpen) → s.lp.cb.removed = false → s'.lp.cb.removed = true → s.phase.clearing = true) ∧
      (s'.phase.clearing = true → s.phase.clearing = true ∨ e.call? = some .clear) := by
  have hs := h
  obtain ⟨g1, g2, g3, g4, g5⟩ := h
  cases e with
  | put k t bs =>
    simp only [Inst.step] at hst
    split at hst
    · cases hst
    rename_i hph
    have hid : s.phase = .idle := Decidable.byContradiction fun hne => hph (.inl hne)
    repeat' split at hst
    all_goals (injection hst with hst; injection hst with h1 h2; subst h1)
    · exact ⟨hs, fun _ a b => by simp_all, fun a => .inl a⟩
    · exact ⟨hs, fun _ a b => by simp_all, fun a => .inl a⟩
    · refine ⟨⟨fun h => ?_, fun j h => ?_, fun a b => g3 a (by simp [hid]), by simp, by simp [Phase.clearing]⟩, fun _ a b => by simp_all, by simp [Phase.clearing]⟩
      · rcases g1 h with h | h
        · simp [hid] at h
        · exact .inr h
      · simp only [Phase.push.injEq] at h; subst h; simp
  | delete k =>
    simp only [Inst.step] at hst
    split at hst
    · cases hst
    rename_i hph
    have hid : s.phase = .idle := Decidable.byContradiction fun hne => hph hne
    repeat' split at hst
    all_goals (injection hst with hst; injection hst with h1 h2; subst h1)
    · exact ⟨hs, fun _ a b => by simp_all, fun a => .inl a⟩
    · exact ⟨hs, fun _ a b => by simp_all, fun a => .inl a⟩
    · exact ⟨hs, fun _ a b => by simp_all, fun a => .inl a⟩
    · refine ⟨⟨fun h => ?_, fun j h => ?_, fun a b => g3 a (by simp [hid]), by simp, by simp [Phase.clearing]⟩, fun _ a b => by simp_all, by simp [Phase.clearing]⟩
      · rcases g1 h with h | h
        · simp [hid] at h
        · exact .inr h
      · simp only [Phase.push.injEq] at h; subst h; simp
  | clear =>
    simp only [Inst.step] at hst
    split at hst
    · cases hst
    rename_i hph
    have hid : s.phase = .idle := Decidable.byContradiction fun hne => hph hne
    split at hst
    · injection hst with hst; injection hst with h1 h2; subst h1
      exact ⟨hs, fun _ a b => by simp_all, fun a => .inl a⟩
    split at hst
    · rename_i hv
      injection hst with hst; injection hst with h1 h2; subst h1
      refine ⟨⟨fun h => ?_, by simp, by simp [hv], by simp, fun _ => hv⟩, fun _ a b => by simp_all, fun _ => .inr rfl⟩
      rcases g1 h with h | h
      · simp [hid] at h
      · exact .inr h
    · rename_i hv
      injection hst with hst; injection hst with h1 h2; subst h1
      refine ⟨⟨fun h => ?_, by simp, by simp, fun _ => g3 (by simpa using hv) (by simp [hid]), fun _ => rfl⟩, fun _ a b => by simp_all, fun _ => .inr rfl⟩
      rcases g1 h with h | h
      · simp [hid] at h
      · exact .inr h
  | drop =>
    simp only [Inst.step] at hst
    split at hst
    · cases hst
    rename_i hph
    have hid : s.phase = .idle := Decidable.byContradiction fun hne => hph hne
    injection hst with hst; injection hst with h1 h2; subst h1
    refine ⟨⟨fun h => ?_, by simp, by simp, by simp, by simp [Phase.clearing]⟩, fun _ a b => ?_, by simp [Phase.clearing]⟩
    · rcases g1 h with h | h
      · simp [hid] at h
      · exact .inr h
    · simp [Looper.dropSender, a] at b
  | io o =>
    obtain ⟨q1, q2⟩ := hs.io hst
    refine ⟨q1, fun _ => q2, fun a => .inl ?_⟩
    rw [← (Inst.step_phase hst).2.2.1 o rfl]; exact a
  | api i =>
    simp only [Inst.step] at hst
    split at hst
    · cases hst
    · cases hst
    · -- push
      rename_i j hph
      injection hst with hst; injection hst with h1 h2; subst h1
      have hj := g2 j hph
      have hsame : (Looper.push s.lp j).io = s.lp.io ∧ (Looper.push s.lp j).buf = s.lp.buf ∧ (Looper.push s.lp j).queue = s.lp.queue ++ [j] ∧
          (Looper.push s.lp j).sender = s.lp.sender ∧ (Looper.push s.lp j).cb = s.lp.cb := by
        unfold Looper.push; split <;> simp
      obtain ⟨c1, c2, c3, c4, c5⟩ := hsame
      refine ⟨⟨fun h => ?_, by simp, fun a b => ?_, by simp, by simp [Phase.clearing]⟩, fun _ a b => ?_, by simp [Phase.clearing]⟩
      · simp only [c2, c3, List.mem_append, List.mem_singleton] at h
        rcases g1 (by rcases h with (h | h) | h; exact .inl h; exact absurd h.symm hj; exact .inr h) with h | h
        · simp [hph] at h
        · rw [c1]; exact .inr h
      · rw [c4]; exact g3 a (by simp [hph])
      · simp only [c5] at b; rw [a] at b; cases b
    · -- send
      rename_i hph
      have hsame : (Looper.send s.lp).1.io = s.lp.io ∧ (Looper.send s.lp).1.buf = s.lp.buf ∧ (Looper.send s.lp).1.queue = s.lp.queue ∧
          (Looper.send s.lp).1.sender = s.lp.sender ∧ (Looper.send s.lp).1.cb = s.lp.cb := by
        unfold Looper.send; repeat' split
        all_goals simp
      obtain ⟨c1, c2, c3, c4, c5⟩ := hsame
      injection hst with hst; injection hst with h1 h2; subst h1
      refine ⟨⟨fun h => ?_, by simp, fun a b => ?_, by simp, by simp [Phase.clearing]⟩, fun _ a b => ?_, by simp [Phase.clearing]⟩
      · simp only [c2, c3] at h
        rcases g1 h with h | h
        · simp [hph] at h
        · simp only [c1]; exact .inr h
      · simp only [c4]; exact g3 a (by simp [hph])
      · simp only [c5] at b; rw [a] at b; cases b
    · -- clrPush
      rename_i hph
      injection hst with hst; injection hst with h1 h2; subst h1
      have hsd := g4 (.inl hph)
      refine ⟨⟨fun h => .inl (.inl rfl), by simp, fun a b => ?_, fun _ => ?_, fun _ => g5 (by simp [hph, Phase.clearing])⟩, fun _ a b => ?_, fun _ => .inl (by simp [hph, Phase.clearing])⟩
      · unfold Looper.push; rw [hsd]; simp
      · unfold Looper.push; rw [hsd]; simp
      · simp [Looper.push, hsd, a] at b
    · -- clrSend
      rename_i hph
      have hsd := g4 (.inr hph)
      have hv := g5 (by simp [hph, Phase.clearing])
      by_cases hd : s.lp.io = .dead ∨ s.lp.io = .exited
      · simp only [Looper.send, hsd, hd, if_true] at hst
        injection hst with hst; injection hst with h1 h2; subst h1
        exact ⟨⟨fun h => .inr hd.symm, by simp, by simp [hv], by simp, by simp [Phase.clearing]⟩, fun _ a b => by simp_all, by simp [Phase.clearing]⟩
      · simp only [Looper.send, hsd, hd, if_true, if_false] at hst
        injection hst with hst; injection hst with h1 h2; subst h1
        exact ⟨⟨fun h => .inl (.inr (.inl rfl)), by simp, by simp [hv], by simp, fun _ => hv⟩, fun _ a b => by simp_all,
          fun _ => .inl (by simp [hph, Phase.clearing])⟩
    · -- clrQuit
      rename_i hph
      have hv := g5 (by simp [hph, Phase.clearing])
      by_cases hsd : s.lp.sender = true
      · by_cases hd : s.lp.io = .dead ∨ s.lp.io = .exited
        · simp only [Looper.quitSend, hsd, hd, if_true, Bool.false_eq_true, if_false] at hst
          injection hst with hst; injection hst with h1 h2; subst h1
          exact ⟨⟨fun h => .inr hd.symm, by simp, by simp [hv], by simp, by simp [Phase.clearing]⟩, fun _ a b => by simp_all, by simp [Phase.clearing]⟩
        · simp only [Looper.quitSend, hsd, hd, if_true, if_false] at hst
          injection hst with hst; injection hst with h1 h2; subst h1
          exact ⟨⟨fun h => .inl (.inr (.inr rfl)), by simp, by simp [hv], by simp, fun _ => hv⟩, fun _ a b => by simp_all,
            fun _ => .inl (by simp [hph, Phase.clearing])⟩
      · simp only [Looper.quitSend, hsd, if_true, if_false, Bool.false_eq_true] at hst
        injection hst with hst; injection hst with h1 h2; subst h1
        exact ⟨⟨fun h => .inl (.inr (.inr rfl)), by simp, by simp [hv], by simp, fun _ => hv⟩, fun _ a b => by simp_all,
          fun _ => .inl (by simp [hph, Phase.clearing])⟩
    · -- clrJoin
      rename_i hph
      have hv := g5 (by simp [hph, Phase.clearing])
      split at hst
      · rename_i hd
        injection hst with hst; injection hst with h1 h2; subst h1
        exact ⟨⟨fun h => .inr (.inl hd), by simp, by simp [hv], by simp, fun _ => hv⟩, fun _ a b => by simp_all,
          fun _ => .inl (by simp [hph, Phase.clearing])⟩
      split at hst
      · rename_i hd
        injection hst with hst; injection hst with h1 h2; subst h1
        exact ⟨⟨fun h => .inr (.inr hd), by simp, by simp [hv], by simp, by simp [Phase.clearing]⟩, fun _ a b => by simp_all, by simp [Phase.clearing]⟩
      · cases hst
    · -- clrOpen
      rename_i hph
      have hv := g5 (by simp [hph, Phase.clearing])
      refine ⟨?_, fun h => absurd hph (h i rfl), fun _ => .inl (by simp [hph, Phase.clearing])⟩
      split at hst
      · injection hst with hst; injection hst with h1 h2; subst h1
        refine ⟨fun h => ?_, by simp, by simp [hv], by simp, by simp [Phase.clearing]⟩
        rcases g1 h with h | h
        · simp [hph] at h
        · exact .inr h
      · rename_i s1 ho
        have ht := Inst.Tame.open ho
        split at hst
        · injection hst with hst; injection hst with h1 h2; subst h1; exact ht
        split at hst
        · injection hst with hst; injection hst with h1 h2; subst h1; exact ht
        split at hst
        · injection hst with hst; injection hst with h1 h2; subst h1; exact ⟨ht.pend, ht.push, ht.sender, ht.clr, ht.inval⟩
        · cases hst

/-! ### A steady history is one of a process that never moves -/

theorem stepObj_same {S T : Sys ι} (hc : S.codecs = T.codecs) {w : World ι} {o : Nat} {e : Ev ι} {c : Option Nat}
    (h : ∀ ob, w.objs[o]? = some ob → ob.inst.Tame ∧ (ob.inst.phase.clearing = true → S.fileOf ob.dir = T.fileOf ob.dir) ∧
      ∀ i, e = .api i → ob.inst.phase ≠ .clrOpen) : w.stepObj S o e c = w.stepObj T o e c := by
  unfold World.stepObj
  cases hob : w.objs[o]? with
  | none => rfl
  | some ob =>
    obtain ⟨ht, hf, ha⟩ := h ob hob
    simp only [hc]
    cases hst : Inst.step T.codecs (ob.inst.withFile (w.content ob.inode)) e with
    | none => rfl
    | some p =>
      obtain ⟨s', r⟩ := p
      have ht' : (ob.inst.withFile (w.content ob.inode)).Tame := ⟨ht.pend, ht.push, ht.sender, ht.clr, ht.inval⟩
      by_cases hr : ob.inst.lp.cb.removed = false ∧ s'.lp.cb.removed = true
      · have := (ht'.step hst).2.1 ha hr.1 hr.2
        simp only [hf this]
      · simp only [hr, if_false]

/-- What holds of the stores along a steady history. -/
structure AtHome (P : Places ι) (c0 : String) (s : Roaming ι) : Prop where
  tame : ∀ {o : Nat} {ob : Obj ι}, s.w.objs[o]? = some ob → ob.inst.Tame
  home : ∀ {o : Nat} {ob : Obj ι}, s.w.objs[o]? = some ob → ob.inst.phase.clearing = true → P.Same c0 s.cwd ob.dir
  ok : ∀ {o : Nat} {ob : Obj ι}, s.w.objs[o]? = some ob → P.dirOk c0 ob.dir = true

theorem roam_act_same {P : Places ι} {c0 : String} {s : Roaming ι} {e : WEv ι} (h : AtHome P c0 s) (hs : Steady P c0 s (.act e)) :
    Roaming.step P s (.act e) = (World.step (P.at c0) s.w e).map fun (w, r) => ({ s with w := w }, some r) := by
  have hobj : ∀ {o : Nat} {ob : Obj ι}, s.w.objs[o]? = some ob → ob.inst.phase.clearing = true →
      (P.at s.cwd).fileOf ob.dir = (P.at c0).fileOf ob.dir := fun ho hc => (h.home ho hc).1
  cases e with
  | lookup d => rfl
  | create d i =>
    obtain ⟨h1, h2⟩ : P.Same c0 s.cwd d := hs
    simp only [Roaming.step, World.step, Places.at, h1, h2]
    rfl
  | call k d m =>
    simp only [Roaming.step, World.step]
    cases hk : s.w.handles[k]? with
    | none => rfl
    | some hd =>
      simp only
      split
      · rfl
      · rw [stepObj_same (S := P.at s.cwd) (T := P.at c0) rfl fun ob ho => ⟨h.tame ho, hobj ho, by cases m <;> simp [evOf]⟩]
  | cont o i =>
    simp only [Roaming.step]
    cases ho : s.w.objs[o]? with
    | none => simp [World.step, ho]
    | some ob =>
      simp only
      by_cases hp : ob.inst.phase = .clrOpen
      · obtain ⟨h1, h2⟩ := h.home ho (by simp [hp, Phase.clearing])
        rw [h2, h.ok ho]
        simp only [World.step, ho, hp, if_true, World.reopen, Places.at, h1, Bool.true_eq_false, and_false, if_false, Inst.reopenStep]
        rfl
      · simp only [hp, false_and, if_false, World.step, ho]
        rw [stepObj_same (S := P.at s.cwd) (T := P.at c0) rfl fun ob' ho' => ⟨h.tame ho', hobj ho', fun _ _ => by
          rw [ho] at ho'; injection ho' with ho'; subst ho'; exact hp⟩]
  | io o ord =>
    simp only [Roaming.step, World.step]
    cases ho : s.w.objs[o]? with
    | none => rfl
    | some ob =>
      simp only
      rw [stepObj_same (S := P.at s.cwd) (T := P.at c0) rfl fun ob' ho' => ⟨h.tame ho', hobj ho', by simp⟩]
  | drop1 k => rfl
  | drop2 k =>
    simp only [Roaming.step, World.step]
    cases hk : s.w.handles[k]? with
    | none => rfl
    | some hd =>
      simp only
      split
      · rfl
      · rw [stepObj_same (S := P.at s.cwd) (T := P.at c0) (w := { s.w with handles := s.w.handles.set k { hd with st := .gone } }) rfl
          fun ob ho => ⟨h.tame ho, hobj ho, by simp⟩]

theorem atHome_step {P : Places ι} {c0 : String} {s : Roaming ι} {e : WEv ι} {w' : World ι} {r : WRes} (h : AtHome P c0 s)
    (R : Reg (P.at c0) s.w) (hs : Steady P c0 s (.act e)) (hst : World.step (P.at c0) s.w e = some (w', r)) : AtHome P c0 { s with w := w' } := by
  have hall : ∀ {o : Nat} {ob : Obj ι}, w'.objs[o]? = some ob → ob.inst.Tame ∧
      (ob.inst.phase.clearing = true → P.Same c0 s.cwd ob.dir) ∧ P.dirOk c0 ob.dir = true := by
    intro o ob ho
    cases hm : step_moves hst with
    | quiet h1 => rw [h1] at ho; exact ⟨h.tame ho, h.home ho, h.ok ho⟩
    | touched _ _ h1 => rw [h1] at ho; exact ⟨h.tame ho, h.home ho, h.ok ho⟩
    | @opened d i x hu hx h1 _ _ =>
      rw [h1, List.getElem?_append] at ho
      split at ho
      · exact ⟨h.tame ho, h.home ho, h.ok ho⟩
      · rw [List.getElem?_singleton] at ho
        split at ho
        · injection ho with ho; subst ho
          refine ⟨.open hx, fun hc => ?_, ?_⟩
          · simp only at hc; rw [openAt_phase hx] at hc; cases hc
          · cases hd : P.dirOk c0 d with
            | true => rfl
            | false =>
              exfalso
              have hd' : (P.at c0).dirOk d = false := hd
              simp only [World.step, hu, hd', if_true] at hst
              split at hst <;> (injection hst with hst; injection hst with _ h2; cases h2)
        · cases ho
    | @stepped _ q ev x s' c r' ha hx hsx h1 _ _ =>
      rw [h1] at ho
      rcases getElem?_set_cases ho with ⟨rfl, rfl⟩ | ⟨_, ho⟩
      · have ht : (x.inst.withFile (s.w.content x.inode)).Tame := ⟨(h.tame hx).pend, (h.tame hx).push, (h.tame hx).sender, (h.tame hx).clr, (h.tame hx).inval⟩
        obtain ⟨g1, _, g3⟩ := ht.step hsx
        have hok := h.ok hx
        refine ⟨g1, fun hc => ?_, hok⟩
        rcases g3 hc with g | g
        · have := h.home hx g
          exact this
        · cases ha with
          | @call k d m y hy hyl hyd =>
            simp only [evOf_call, Option.some.injEq] at g
            subst g
            obtain ⟨b, q1, q2⟩ := R.hobj hy
            rw [hx] at q1; injection q1 with q1; subst q1
            simp only [q2, hyd]; exact hs
          | cont _ _ => simp [Ev.call?] at g
          | io => simp [Ev.call?] at g
          | drop _ _ _ => simp [Ev.call?] at g
      · exact ⟨h.tame ho, h.home ho, h.ok ho⟩
    | @reopened q i x s' r' hx hp hsx h1 _ _ =>
      rw [h1] at ho
      rcases getElem?_set_cases ho with ⟨rfl, rfl⟩ | ⟨_, ho⟩
      · have ht := h.tame hx
        have hc : x.inst.phase.clearing = true := by simp [hp, Phase.clearing]
        have hok := h.ok hx
        have hho := h.home hx hc
        refine ⟨?_, fun _ => hho, hok⟩
        unfold Inst.reopenStep at hsx
        split at hsx
        · injection hsx with hsx; injection hsx with g1 g2; subst g1
          refine ⟨fun hq => ?_, by simp, fun hv => ?_, by simp, by simp [Phase.clearing]⟩
          · rcases ht.pend hq with hq | hq
            · simp [hp] at hq
            · exact .inr hq
          · have hv' : x.inst.valid = true := hv
            rw [ht.inval hc] at hv'; cases hv'
        · have ht' : (x.inst.atName (s.w.fileAt ((P.at c0).fileOf x.dir))).Tame := ⟨ht.pend, ht.push, ht.sender, ht.clr, ht.inval⟩
          exact (ht'.step hsx).1
      · exact ⟨h.tame ho, h.home ho, h.ok ho⟩
  exact ⟨fun ho => (hall ho).1, fun ho => (hall ho).2.1, fun ho => (hall ho).2.2⟩

theorem roam_run {P : Places ι} {c0 : String} (es : List (CEv ι)) : ∀ {s s' : Roaming ι} {rs : List WRes}, AtHome P c0 s → Reg (P.at c0) s.w →
    SteadyRun P c0 s es → Roaming.run P s es = some (s', rs) → World.run (P.at c0) s.w (libEvents es) = some (s'.w, rs) := by
  induction es with
  | nil =>
    intro s s' rs _ _ _ hrun
    simp only [Roaming.run, Option.some.injEq, Prod.mk.injEq] at hrun
    obtain ⟨rfl, rfl⟩ := hrun
    rfl
  | cons e es ih =>
    intro s s' rs h R hst hrun
    obtain ⟨h1, h2⟩ := hst
    unfold Roaming.run at hrun
    split at hrun
    · cases hrun
    rename_i s1 r1 hs1
    split at hrun
    · cases hrun
    rename_i s2 rs2 hr2
    simp only [Option.some.injEq, Prod.mk.injEq] at hrun
    obtain ⟨rfl, rfl⟩ := hrun
    cases e with
    | chdir c =>
      have h2 := h2 s1 r1 hs1
      simp only [Roaming.step, Option.some.injEq, Prod.mk.injEq] at hs1
      obtain ⟨rfl, rfl⟩ := hs1
      exact ih (s := { s with cwd := c }) ⟨h.tame, fun ho hc => h1 _ _ ho hc, h.ok⟩ R h2 hr2
    | act e =>
      have h2 := h2 s1 r1 hs1
      rw [roam_act_same h h1, Option.map_eq_some_iff] at hs1
      obtain ⟨⟨w1, x⟩, hw, heq⟩ := hs1
      injection heq with q1 q2; subst q1; subst q2
      have := ih (s := { s with w := w1 }) (atHome_step h R h1 hw) (R.step hw) h2 hr2
      simp only [libEvents, List.filterMap_cons]
      unfold World.run
      simp only [hw]
      simp only [libEvents] at this
      rw [this]
      rfl

/-- The process at its start. -/
def roamStart (c0 : String) (names : Nat → Option Nat) (inodes : List Bytes) : Roaming ι := { cwd := c0, w := World.start names inodes }

theorem atHome_start (P : Places ι) (c0 : String) (names : Nat → Option Nat) (inodes : List Bytes) :
    AtHome P c0 (roamStart c0 names inodes) := ⟨by simp [roamStart, World.start], by simp [roamStart, World.start], by simp [roamStart, World.start]⟩

/-- **C97**, the true part in full generality: a history with any number of `chdir`s, by any thread at any moment, in which strings are looked up
only while they name what they named at the start, is step for step and result for result one of a process that never moves.  So everything
proved about those holds of it. -/
theorem C97_as_if_it_never_moved {P : Places ι} {c0 : String} {names : Nat → Option Nat} {inodes : List Bytes} (hg : GoodNames names inodes)
    {es : List (CEv ι)} {s : Roaming ι} {rs : List WRes} (hrun : Roaming.run P (roamStart c0 names inodes) es = some (s, rs))
    (hst : SteadyRun P c0 (roamStart c0 names inodes) es) :
    World.run (P.at c0) (World.start names inodes) (libEvents es) = some (s.w, rs) :=
  roam_run es (atHome_start P c0 names inodes) (Reg.start (P.at c0) hg.exist hg.inj) hst hrun

/-- With absolute paths every history is such. -/
theorem steady_absolute {P : Places ι} (c0 : String) (habs : ∀ c d, P.Same c0 c d) (es : List (CEv ι)) : ∀ s, SteadyRun P c0 s es := by
  induction es with
  | nil => intro s; trivial
  | cons e es ih =>
    intro s
    refine ⟨?_, fun s' _ _ => ih s'⟩
    match e with
    | .chdir c => exact fun o ob _ _ => habs c _
    | .act (.create d _) => exact habs _ _
    | .act (.call _ d .clear) => exact habs _ _
    | .act (.call _ d (.put _ _)) => trivial
    | .act (.call _ d (.delete _)) => trivial
    | .act (.lookup _) => trivial
    | .act (.cont _ _) => trivial
    | .act (.io _ _) => trivial
    | .act (.drop1 _) => trivial
    | .act (.drop2 _) => trivial

/-- Neither `clear_data` nor a `MMKV::new` that may open a directory. -/
def CEv.names (e : CEv ι) : Bool :=
  match e with
  | .act (.create _ _) => true
  | .act (.call _ _ .clear) => true
  | _ => false

/-- And so is every history that, with whatever paths, only puts, gets, deletes and drops from some moment on, if no `clear_data` is under way
then. -/
theorem steady_no_names {P : Places ι} {c0 : String} (es : List (CEv ι)) : ∀ {s : Roaming ι},
    (∀ (o : Nat) (ob : Obj ι), s.w.objs[o]? = some ob → ob.inst.Tame ∧ ob.inst.phase.clearing = false) → (∀ e ∈ es, e.names = false) →
    SteadyRun P c0 s es := by
  induction es with
  | nil => intro s _ _; trivial
  | cons e es ih =>
    intro s h he
    have he0 := he e (by simp)
    refine ⟨?_, fun s' r hs' => ih ?_ fun e' h' => he e' (by simp [h'])⟩
    · match e with
      | .chdir c => intro o ob ho hc; rw [(h o ob ho).2] at hc; cases hc
      | .act (.create d _) => simp [CEv.names] at he0
      | .act (.call _ d .clear) => simp [CEv.names] at he0
      | .act (.call _ d (.put _ _)) => trivial
      | .act (.call _ d (.delete _)) => trivial
      | .act (.lookup _) => trivial
      | .act (.cont _ _) => trivial
      | .act (.io _ _) => trivial
      | .act (.drop1 _) => trivial
      | .act (.drop2 _) => trivial
    · cases e with
      | chdir c =>
        simp only [Roaming.step, Option.some.injEq, Prod.mk.injEq] at hs'
        obtain ⟨rfl, rfl⟩ := hs'
        exact h
      | act e =>
        have hstep : ∃ w' x, World.step (P.at s.cwd) s.w e = some (w', x) ∧ s'.w = w' := by
          cases e with
          | cont o i =>
            simp only [Roaming.step] at hs'
            split at hs'
            · cases hs'
            rename_i ob ho
            have : ob.inst.phase ≠ .clrOpen := fun hp => by have := (h o ob ho).2; simp [hp, Phase.clearing] at this
            simp only [this, false_and, if_false, Option.map_eq_some_iff] at hs'
            obtain ⟨⟨w1, x⟩, hw, heq⟩ := hs'
            injection heq with q1 q2; subst q1
            exact ⟨w1, x, hw, rfl⟩
          | _ =>
            simp only [Roaming.step, Option.map_eq_some_iff] at hs'
            obtain ⟨⟨w1, x⟩, hw, heq⟩ := hs'
            injection heq with q1 q2; subst q1
            exact ⟨w1, x, hw, rfl⟩
        obtain ⟨w', x, hw, rfl⟩ := hstep
        intro o ob ho
        cases hm : step_moves hw with
        | quiet h1 => rw [h1] at ho; exact h o ob ho
        | touched _ _ h1 => rw [h1] at ho; exact h o ob ho
        | opened _ _ _ _ _ => simp [CEv.names] at he0
        | @stepped _ q ev y s1 c r' ha hx hsx h1 _ _ =>
          rw [h1] at ho
          rcases getElem?_set_cases ho with ⟨rfl, rfl⟩ | ⟨_, ho⟩
          · obtain ⟨ht, hc⟩ := h _ _ hx
            have ht : (y.inst.withFile (s.w.content y.inode)).Tame := ⟨ht.pend, ht.push, ht.sender, ht.clr, ht.inval⟩
            obtain ⟨g1, _, g3⟩ := ht.step hsx
            refine ⟨g1, ?_⟩
            cases hcl : s1.phase.clearing with
            | false => rfl
            | true =>
              exfalso
              rcases g3 hcl with g | g
              · simp [hc] at g
              · cases ha with
                | @call k d m z hz hzl hzd =>
                  simp only [evOf_call, Option.some.injEq] at g
                  subst g
                  simp [CEv.names] at he0
                | cont _ _ => simp [Ev.call?] at g
                | io => simp [Ev.call?] at g
                | drop _ _ _ => simp [Ev.call?] at g
          · exact h o ob ho
        | @reopened q i y s1 r' hx hp hsx h1 _ _ =>
          have := (h _ _ hx).2
          simp [hp, Phase.clearing] at this

/-- **C97**, what is true, seen by a user of plain stores: in such a history, wherever the process goes, every call returns `Ok`; every get
through every handle in use answers from the calls made so far on the directory its string named at the start; and once its stores are closed
that directory shows all of them.  Missing: strings that are looked up (by `MMKV::new` or `clear_data`) while they name something else
(`C97_refuted_new`, `C97_refuted_clear`, `C97_refuted_panic`). -/
theorem C97_partial {P : Places Unit} {c0 : String} {page K : Nat} (hp : Plain (P.at c0) page) {names : Nat → Option Nat} {inodes : List Bytes}
    (hg : GoodNames names inodes) {S0 : Nat → Store}
    (h0 : ∀ f, FileMap page K (((start names inodes : World Unit).fileAt f).getD []) (S0 f))
    {es : List (CEv Unit)} {s : Roaming Unit} {rs : List WRes} (hrun : Roaming.run P (roamStart c0 names inodes) es = some (s, rs))
    (hst : SteadyRun P c0 (roamStart c0 names inodes) es)
    (hfit : ∀ e ∈ libEvents es, e.Fits page) (hcalm : CalmRun (P.at c0) (start names inodes) (libEvents es))
    (hroom : page * (K + es.length) + 8 < 2 ^ 64) :
    (∀ x, .ret x ∈ rs → x = .ok ()) ∧
    (∀ (h : Nat) (hd : Handle) (i : Inst Unit), s.w.handles[h]? = some hd → s.w.store? h = some i → i.phase = .idle →
        i.Shows ((S0 (P.fileOf c0 hd.dir)).run (callsOf (P.at c0) (P.fileOf c0 hd.dir) (libEvents es)))) ∧
    ∀ d, (∀ (o : Nat) (ob : Obj Unit), s.w.objs[o]? = some ob → P.fileOf c0 ob.dir = P.fileOf c0 d → ob.inst.closedOk) →
      ∃ i, Inst.openAt plain () page ((s.w.fileAt (P.fileOf c0 d)).getD []) = some i ∧
        i.Shows ((S0 (P.fileOf c0 d)).run (callsOf (P.at c0) (P.fileOf c0 d) (libEvents es))) := by
  have hw := C97_as_if_it_never_moved hg hrun hst
  have hlen : (libEvents es).length ≤ es.length := List.length_filterMap_le _ _
  have hroom' : page * (K + (libEvents es).length) + 8 < 2 ^ 64 := by
    have := Nat.mul_le_mul_left page (Nat.add_le_add_left hlen K); omega
  obtain ⟨h1, h2⟩ := C01_process hp hg h0 hw hfit hcalm hroom'
  exact ⟨h1, h2, fun d hc => C06_process hp hg h0 hw hfit hcalm hroom' hc⟩

/-! ### What is false -/

/-- **C97 is false of this program, always**: while a handle made with a string is in use, `MMKV::new` with that string returns, wherever the process
has gone, another handle on the same store, and not the directory the string names there. -/
theorem C97_refuted_new {P : Places ι} {c0 : String} {names : Nat → Option Nat} {inodes : List Bytes} (hg : GoodNames names inodes)
    {es : List (CEv ι)} {s : Roaming ι} {rs : List WRes} (hrun : Roaming.run P (roamStart c0 names inodes) es = some (s, rs))
    (hst : SteadyRun P c0 (roamStart c0 names inodes) es) (hpo : s.w.poisoned = false)
    {h : Nat} {hd : Handle} {i : Inst ι} (hh : s.w.handles[h]? = some hd) (hs : s.w.store? h = some i) (c : String) :
    ∃ s' n, Roaming.run P s [.chdir c, .act (.lookup hd.dir)] = some (s', [.handle n]) ∧ s'.cwd = c ∧ s'.w.store? n = some i := by
  have R := reg_reachable hg (C97_as_if_it_never_moved hg hrun hst)
  obtain ⟨hd', ob, h1, h2, h3, rfl⟩ := store_live hs
  rw [hh] at h1; injection h1 with h1; subst h1
  have hl := R.listed hh h2
  have hpos := strong_pos hh (by simp [h2])
  have hu : s.w.upgrade hd.dir = some hd.obj := by
    unfold World.upgrade
    rw [hl]; simp only
    rw [if_neg (by omega)]
  refine ⟨⟨c, (s.w.addHandle hd.dir hd.obj).1⟩, s.w.handles.length, ?_, rfl, ?_⟩
  · simp [Roaming.run, Roaming.step, World.step, hpo, hu, World.addHandle]
  · simp [World.store?, World.addHandle, h3]

/-- `clear_data` leaves the directory of the handle alone: from a place where no string in use names the file `f`, no event of the library takes
away its name, whoever calls `clear_data` on what. -/
theorem C97_refuted_kept {P : Places ι} {f n : Nat} (es : List (WEv ι)) : ∀ {s s' : Roaming ι} {rs : List WRes}, s.w.names f = some n →
    (∀ (o : Nat) (ob : Obj ι), s.w.objs[o]? = some ob → P.fileOf s.cwd ob.dir ≠ f) → (∀ d i, .create d i ∈ es → P.fileOf s.cwd d ≠ f) →
    Roaming.run P s (es.map .act) = some (s', rs) → s'.w.names f = some n := by
  induction es with
  | nil =>
    intro s s' rs hn _ _ hrun
    simp only [List.map_nil, Roaming.run, Option.some.injEq, Prod.mk.injEq] at hrun
    obtain ⟨rfl, rfl⟩ := hrun
    exact hn
  | cons e es ih =>
    intro s s' rs hn ho hc hrun
    rw [List.map_cons] at hrun
    unfold Roaming.run at hrun
    split at hrun
    · cases hrun
    rename_i s1 r1 hs1
    split at hrun
    · cases hrun
    rename_i s2 rs2 hr2
    simp only [Option.some.injEq, Prod.mk.injEq] at hrun
    obtain ⟨rfl, rfl⟩ := hrun
    have touchN : ∀ g, g ≠ f → (s.w.touch (P.at s.cwd).page g).1.names f = s.w.names f := by
      intro g hg
      unfold World.touch
      split
      · rfl
      · simp [Ne.symm hg]
    have key : s1.cwd = s.cwd ∧ s1.w.names f = some n ∧ ∀ (o : Nat) (ob : Obj ι), s1.w.objs[o]? = some ob → P.fileOf s.cwd ob.dir ≠ f := by
      have hstep : (∃ w' x, World.step (P.at s.cwd) s.w e = some (w', x) ∧ s1 = { s with w := w' }) ∨
          ∃ o ob, s.w.objs[o]? = some ob ∧ s1 = { s with w := Roaming.reopenPanic s.w o ob } := by
        cases e with
        | cont o i =>
          simp only [Roaming.step] at hs1
          split at hs1
          · cases hs1
          rename_i ob hob
          split at hs1
          · injection hs1 with hs1; injection hs1 with q1 q2
            exact .inr ⟨o, ob, hob, q1.symm⟩
          · simp only [Option.map_eq_some_iff] at hs1
            obtain ⟨⟨w1, x⟩, hw, heq⟩ := hs1
            injection heq with q1 q2
            exact .inl ⟨w1, x, hw, q1.symm⟩
        | _ =>
          simp only [Roaming.step, Option.map_eq_some_iff] at hs1
          obtain ⟨⟨w1, x⟩, hw, heq⟩ := hs1
          injection heq with q1 q2
          exact .inl ⟨w1, x, hw, q1.symm⟩
      rcases hstep with ⟨w', x, hw, rfl⟩ | ⟨o, ob, hob, rfl⟩
      · refine ⟨rfl, ?_⟩
        cases hm : step_moves hw with
        | quiet h1 h2 => exact ⟨by rw [h2]; exact hn, by rw [h1]; exact ho⟩
        | @touched d i _ _ h1 h2 _ => exact ⟨by rw [h2]; exact (touchN _ (hc d i (by simp))).trans hn, by rw [h1]; exact ho⟩
        | @opened d i x _ _ h1 h2 _ =>
          refine ⟨by rw [h2]; exact (touchN _ (hc d i (by simp))).trans hn, fun o ob hob => ?_⟩
          rw [h1, List.getElem?_append] at hob
          split at hob
          · exact ho o ob hob
          · rw [List.getElem?_singleton] at hob
            split at hob
            · injection hob with hob; subst hob
              exact hc d i (by simp)
            · cases hob
        | @stepped _ q ev y s1 c r' ha hx hsx h1 h2 _ =>
          refine ⟨?_, fun o ob hob => ?_⟩
          · rw [h2]
            split
            · have hne : ¬ f = (P.at s.cwd).fileOf y.dir := fun hf => ho q y hx hf.symm
              simp only [if_neg hne]; exact hn
            · exact hn
          · rw [h1] at hob
            rcases getElem?_set_cases hob with ⟨rfl, rfl⟩ | ⟨_, hob⟩
            · exact ho _ y hx
            · exact ho o ob hob
        | @reopened q i y s1 r' hx hp hsx h1 h2 _ =>
          refine ⟨by rw [h2]; exact (touchN _ (ho q y hx)).trans hn, fun o ob hob => ?_⟩
          rw [h1] at hob
          rcases getElem?_set_cases hob with ⟨rfl, rfl⟩ | ⟨_, hob⟩
          · exact ho _ y hx
          · exact ho o ob hob
      · refine ⟨rfl, hn, fun p x hx => ?_⟩
        simp only [Roaming.reopenPanic] at hx
        rcases getElem?_set_cases hx with ⟨rfl, rfl⟩ | ⟨_, hx⟩
        · exact ho _ ob hob
        · exact ho p x hx
    obtain ⟨k1, k2, k3⟩ := key
    exact ih k2 (by rw [k1]; exact k3) (by rw [k1]; exact fun d i h => hc d i (by simp [h])) hr2

/-- Two places "/a" and "/b", each with a directory "data" in it (files 0 and 1), and a place "/c" without; "/a/data" is file 0 from everywhere. -/
def abc : Places Unit :=
  { codecs := plain, page := 64
    fileOf := fun c d => if d = "data" then (if c = "/a" then 0 else if c = "/b" then 1 else 2) else if d = "/a/data" then 0 else 3
    dirOk := fun c d => c != "/c" || d != "data" }

/-- Opening "data", putting a value, closing. -/
def visit (h : Nat) (v : UInt8) : List (WEv Unit) :=
  [.create "data" ()] ++ wput h h "data" "k" v ++ wio h ++ [.drop1 h, .drop2 h, .io h id]

/-- A `clear_data` through handle `h` on store `o`, with the background thread, up to its return. -/
def wclear (h o : Nat) (dir : String) : List (WEv Unit) :=
  [.call h dir .clear, .cont o (), .cont o ()] ++ wio o ++ [.cont o (), .io o id, .cont o (), .cont o ()]

/-- What `get::<i32>` returns for "k" when a file is opened alone. -/
def shown (w : World Unit) (f : Nat) : Option (Out Int) :=
  (Inst.openAt plain () 64 ((w.fileAt f).getD [])).map fun s => s.getAs "k" Ty.i32.token fun b => .ok (beVal b)

/-- "/a/data" holds k = 7, "/b/data" holds k = 8, nothing is open, and the process is in "/a" again. -/
def visited : List (CEv Unit) :=
  (visit 0 7).map .act ++ [.chdir "/b"] ++ (visit 1 8).map .act ++ [.chdir "/a"]

example : ((Roaming.run abc (roamStart "/a" (fun _ => none) []) visited).map fun p =>
    (shown p.1.w 0, shown p.1.w 1, p.1.w.objs.map fun ob => (ob.inst.phase, ob.inst.lp.io))) =
    some (some (.ok 7), some (.ok 8), [(.closed, .exited), (.closed, .exited)]) := by decide +kernel

/-- `C97_refuted_new`, an execution: "data" is opened in "/a"; the process goes to "/b" and opens "data" there: it gets the value 7 of "/a/data",
not the 8 that "/b/data" holds, and the value it puts goes to "/a/data". -/
theorem C97_refuted_new_execution :
    ((Roaming.run abc (roamStart "/a" (fun _ => none) []) (visited ++ [.act (.create "data" ()), .chdir "/b", .act (.lookup "data")])).map fun p =>
      (wget p.1.w 2 "k", wget p.1.w 3 "k", shown p.1.w 1)) = some (some (.ok 7), some (.ok 7), some (.ok 8)) ∧
    ((Roaming.run abc (roamStart "/a" (fun _ => none) []) (visited ++ [.act (.create "data" ()), .chdir "/b", .act (.lookup "data")] ++
        (wput 3 2 "data" "k" 9 ++ wio 2).map .act)).map fun p =>
      (shown p.1.w 0, shown p.1.w 1)) = some (some (.ok 9), some (.ok 8)) := by
  constructor <;> decide +kernel

/-- **C97 is false of this program**: a handle made in "/a" with "data" is used in "/b" to clear its data.  The call returns `Ok`; the data of the
handle ("/a/data") are still there when the directory is opened again, and those of "/b/data", which this process may never have opened, are gone
for good.  From then on the handle writes to "/b/data". -/
theorem C97_refuted_clear :
    ((Roaming.run abc (roamStart "/a" (fun _ => none) []) (visited ++ [.act (.create "data" ()), .chdir "/b"] ++
        (wclear 2 2 "data").map .act)).map fun p =>
      (p.2.getLast?, wget p.1.w 2 "k", shown p.1.w 0, shown p.1.w 1)) =
      some (some (.ret (.ok ())), some (.err .keyNotFound), some (.ok 7), some (.err .keyNotFound)) ∧
    ((Roaming.run abc (roamStart "/a" (fun _ => none) []) (visited ++ [.act (.create "data" ()), .chdir "/b"] ++
        (wclear 2 2 "data" ++ wput 2 2 "data" "k" 9 ++ wio 2).map .act)).map fun p =>
      (shown p.1.w 0, shown p.1.w 1)) = some (some (.ok 7), some (.ok 9)) := by
  constructor <;> decide +kernel

/-- **C97 is false of this program**: where the string names no directory, `clear_data` panics, the data stay, and the handle answers every later call
with an error. -/
theorem C97_refuted_panic :
    ((Roaming.run abc (roamStart "/a" (fun _ => none) []) (visited ++ [.act (.create "data" ()), .chdir "/c"] ++
        (wclear 2 2 "data" ++ [WEv.call 2 "data" (.delete "k")]).map .act ++ [.chdir "/a", .act (.call 2 "data" .clear)])).map fun p =>
      (p.2.drop (p.2.length - 3), wget p.1.w 2 "k", shown p.1.w 0)) =
      some ([.ret .panic, .ret (.err (.lockError "")), .ret (.err (.lockError ""))], some (.err (.lockError "")), some (.ok 7)) := by
  decide +kernel

/-! ### The hypotheses can be met -/

/-- Checking `SteadyRun` by running; the strings of `abc` name the same from `c` as from `c0`. -/
def sameB (c0 c d : String) : Bool := (abc.fileOf c d == abc.fileOf c0 d) && (abc.dirOk c d == abc.dirOk c0 d)

def steadyB (c0 : String) : Roaming Unit → List (CEv Unit) → Bool
  | _, [] => true
  | s, e :: es =>
    (match e with
      | .chdir c => s.w.objs.all fun ob => !ob.inst.phase.clearing || sameB c0 c ob.dir
      | .act (.create d _) => sameB c0 s.cwd d
      | .act (.call _ d .clear) => sameB c0 s.cwd d
      | _ => true) &&
    match Roaming.step abc s e with
    | none => true
    | some (s', _) => steadyB c0 s' es

theorem same_of {c0 c d : String} (h : sameB c0 c d = true) : abc.Same c0 c d := by
  simp only [sameB, Bool.and_eq_true, beq_iff_eq] at h
  exact h

theorem steady_of {c0 : String} : ∀ (es : List (CEv Unit)) {s : Roaming Unit}, steadyB c0 s es = true → SteadyRun abc c0 s es := by
  intro es
  induction es with
  | nil => intro s _; trivial
  | cons e es ih =>
    intro s h
    unfold steadyB at h
    rw [Bool.and_eq_true] at h
    refine ⟨?_, ?_⟩
    · have h1 := h.1
      match e, h1 with
      | .chdir c, h1 =>
        intro o ob ho hc
        simp only [List.all_eq_true, Bool.or_eq_true, Bool.not_eq_true'] at h1
        rcases h1 ob (List.mem_of_getElem? ho) with g | g
        · rw [hc] at g; cases g
        · exact same_of g
      | .act (.create d _), h1 => exact same_of h1
      | .act (.call _ d .clear), h1 => exact same_of h1
      | .act (.call _ d (.put _ _)), _ => trivial
      | .act (.call _ d (.delete _)), _ => trivial
      | .act (.lookup _), _ => trivial
      | .act (.cont _ _), _ => trivial
      | .act (.io _ _), _ => trivial
      | .act (.drop1 _), _ => trivial
      | .act (.drop2 _), _ => trivial
    · intro s' r hst
      have h2 := h.2
      rw [hst] at h2
      exact ih h2

/-- A relative and an absolute string; puts from three places, a `clear_data` after coming home, the store closed from far away. -/
def homely : List (CEv Unit) :=
  [.act (.create "data" ()), .chdir "/b"] ++ (wput 0 0 "data" "k" 7 ++ wio 0).map .act ++ [.chdir "/c"] ++ (wput 0 0 "data" "k" 9).map .act ++
  [.chdir "/a"] ++ (wio 0 ++ wclear 0 0 "data").map .act ++ [.chdir "/c"] ++ (wput 0 0 "data" "k" 5 ++ wio 0 ++ [WEv.drop1 0, WEv.drop2 0, WEv.io 0 id]).map .act ++
  [.act (.create "/a/data" ()), .chdir "/b"]

example : ((Roaming.run abc (roamStart "/a" (fun _ => none) []) homely).map fun p => (wget p.1.w 1 "k", shown p.1.w 0, shown p.1.w 1, p.1.cwd)) =
    some (some (.ok 5), some (.ok 5), some (.err .keyNotFound), "/b") := by decide +kernel

theorem wput_fits (h o : Nat) (d k : String) (v : UInt8) (hl : (kvToBytes ⟨k, 0, [0, 0, 0, v]⟩).length ≤ 59) : ∀ e ∈ wput h o d k v, e.Fits 64 := by
  intro e he
  simp only [wput, List.mem_cons, List.not_mem_nil, or_false] at he
  rcases he with rfl | rfl | rfl
  · simp only [WEv.Fits, evOf, Ev.Fits, recordSize]; omega
  · trivial
  · trivial

theorem wio_fits (o : Nat) : ∀ e ∈ wio o, e.Fits 64 := by
  intro e he
  obtain ⟨_, rfl⟩ := List.mem_replicate.1 he
  exact fun l => List.Perm.refl l

theorem libEvents_append (a b : List (CEv ι)) : libEvents (a ++ b) = libEvents a ++ libEvents b := by simp [libEvents]

theorem libEvents_act (l : List (WEv ι)) : libEvents (l.map .act) = l := by
  induction l with
  | nil => rfl
  | cons e l ih => simp only [libEvents, List.map_cons, List.filterMap_cons] at ih ⊢; rw [ih]

/-- The hypotheses of `C97_as_if_it_never_moved`, `C97_partial` and `C97_refuted_new` hold of it. -/
example : Plain (abc.at "/a") 64 ∧ GoodNames (fun _ => none) [] ∧
    (∀ f, FileMap 64 0 (((start (fun _ => none) [] : World Unit).fileAt f).getD []) Store.empty) ∧
    SteadyRun abc "/a" (roamStart "/a" (fun _ => none) []) homely ∧ (∀ e ∈ libEvents homely, e.Fits 64) ∧
    CalmRun (abc.at "/a") (start (fun _ => none) []) (libEvents homely) ∧ 64 * (0 + homely.length) + 8 < 2 ^ 64 := by
  refine ⟨⟨by decide, by decide, rfl, rfl, rfl⟩, .none, fun _ => fileMap_empty, steady_of _ (by decide +kernel), ?_, calmRun_of _ (by decide +kernel), by decide⟩
  have hio1 : ∀ o, (WEv.io o id : WEv Unit).Fits 64 := fun o l => List.Perm.refl l
  have hcl : (WEv.call 0 "data" .clear : WEv Unit).Fits 64 := trivial
  have h1 : ∀ e : WEv Unit, (∀ k d m, e ≠ .call k d m) → (∀ o ord, e ≠ .io o ord) → e.Fits 64 := by
    intro e g1 g2
    cases e with
    | call k d m => exact absurd rfl (g1 k d m)
    | io o ord => exact absurd rfl (g2 o ord)
    | _ => trivial
  unfold homely wclear
  simp only [libEvents_append, libEvents_act]
  simp only [libEvents, List.filterMap_cons, List.filterMap_nil]
  simp only [List.forall_mem_append, List.forall_mem_cons]
  simp only [List.not_mem_nil, false_implies, implies_true, and_true, hcl, hio1, true_and]
  have c7 := wput_fits 0 0 "data" "k" 7 (by decide)
  have c9 := wput_fits 0 0 "data" "k" 9 (by decide)
  have c5 := wput_fits 0 0 "data" "k" 5 (by decide)
  have ci := wio_fits 0
  repeat' apply And.intro
  all_goals first
    | exact c7 | exact c9 | exact c5 | exact ci
    | trivial
    | exact h1 _ (by simp) (by simp)

end Mmkv
