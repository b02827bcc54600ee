import Verif.Props.Process
import Verif.Props.Looper
/-!
# Nothing waits for ever: C41, C42 for whole stores and processes
-/

namespace Mmkv
open Spec World
variable {ι : Type}

/-! ### One store -/

/-- Steps the call that holds the write lock can still make on its own, with what they put on the thread's list. -/
def Phase.weight : Phase → Nat
  | .idle => 0 | .closed => 0 | .push _ => 6 | .send => 4
  | .clrPush => 12 | .clrSend => 10 | .clrQuit => 6 | .clrJoin => 2 | .clrOpen => 1

/-- Steps a store can still make before its call returns. -/
def Inst.left (s : Inst ι) : Nat := Looper.measure s.lp + s.phase.weight

/-- A clear that failed has left a thread that is gone, and a clear that waits has closed the channel. -/
structure Inst.Waits (s : Inst ι) : Prop where
  sender : s.valid = true → s.phase ≠ .closed → s.lp.sender = true
  clrSender : s.phase = .clrPush ∨ s.phase = .clrSend ∨ s.phase = .clrQuit → s.lp.sender = true
  failed : s.valid = false → s.phase = .idle ∨ s.phase = .clrOpen → s.lp.io = .dead ∨ s.lp.io = .exited
  join : s.phase = .clrJoin ∨ s.phase = .closed → s.lp.sender = false
  clr : s.phase = .clrPush ∨ s.phase = .clrSend ∨ s.phase = .clrQuit ∨ s.phase = .clrJoin ∨ s.phase = .clrOpen → s.valid = false
  out : s.phase = .send ∨ (∃ j, s.phase = .push j) → s.valid = true

theorem Looper.push_same {O J T : Type} (s : Looper.St O J T) (j : J) :
    (Looper.push s j).sender = s.sender ∧ (Looper.push s j).io = s.io ∧
    Looper.measure (Looper.push s j) = Looper.measure s + 1 := by
  unfold Looper.push
  split
  · refine ⟨rfl, rfl, ?_⟩
    simp only [Looper.measure, List.length_append, List.length_singleton]; omega
  · refine ⟨rfl, rfl, ?_⟩
    simp only [Looper.measure, List.length_append, List.length_singleton]; omega

theorem Looper.send_same {O J T : Type} (s : Looper.St O J T) :
    (Looper.send s).1.sender = s.sender ∧ (Looper.send s).1.io = s.io ∧
    Looper.measure (Looper.send s).1 ≤ Looper.measure s + 3 ∧
    ((Looper.send s).2 = false → s.sender = true → s.io = .dead ∨ s.io = .exited) := by
  unfold Looper.send
  split
  · split
    · rename_i h
      exact ⟨rfl, rfl, by simp only [Looper.measure]; omega, fun _ _ => h⟩
    · exact ⟨rfl, rfl, by simp only [Looper.measure, List.length_append, List.length_singleton]; omega, by simp⟩
  · rename_i h
    exact ⟨rfl, rfl, by simp only []; omega, fun _ h' => absurd h' h⟩

theorem Looper.quit_same {O J T : Type} (s : Looper.St O J T) :
    ((Looper.quitSend s).1.sender = false) ∧ (Looper.quitSend s).1.io = s.io ∧
    Looper.measure (Looper.quitSend s).1 ≤ Looper.measure s + 3 ∧
    ((Looper.quitSend s).2 = false → s.io = .dead ∨ s.io = .exited) := by
  unfold Looper.quitSend
  split
  · split
    · rename_i h
      exact ⟨rfl, rfl, by simp only [Looper.measure]; omega, fun _ => h⟩
    · exact ⟨rfl, rfl, by simp only [Looper.measure, List.length_append, List.length_singleton]; omega, by simp⟩
  · rename_i h
    exact ⟨by simpa using h, rfl, by simp only []; omega, by simp⟩

theorem Inst.Waits.fresh {codecs : ι → Codec} {i : ι} {p : Nat} {f : Bytes} {u : Nat} {q : Option Nat} {x : Inst ι}
    (hx : Inst.openAt codecs i p f u q = some x) : x.Waits := by
  unfold Inst.openAt at hx
  split at hx
  · cases hx
  · injection hx with hx; subst hx
    exact ⟨fun _ _ => rfl, fun _ => rfl, by simp, by simp, by simp, by simp⟩

theorem Inst.Waits.poison {s : Inst ι} (h : s.Waits) : ({ s with poisoned := true } : Inst ι).Waits :=
  ⟨h.1, h.2, h.3, h.4, h.5, h.6⟩

theorem Inst.Waits.step {codecs : ι → Codec} {s s' : Inst ι} {e : Ev ι} {r : Option (Out Unit)} (hw : s.Waits)
    (h : Inst.step codecs s e = some (s', r)) : s'.Waits := by
  obtain ⟨w1, w2, w3, w4, w5, w6⟩ := hw
  cases e with
  | put key token bytes =>
    simp only [Inst.step] at h
    split at h
    · cases h
    · rename_i h0
      have hidle : s.phase = .idle := Decidable.byContradiction fun hne => h0 (.inl hne)
      split at h
      · injection h with h; injection h with h1 h2; subst h1; exact ⟨w1, w2, w3, w4, w5, w6⟩
      split at h
      · injection h with h; injection h with h1 h2; subst h1; exact ⟨w1, w2, w3, w4, w5, w6⟩
      rename_i hv
      injection h with h; injection h with h1 h2; subst h1
      exact ⟨fun hv _ => w1 hv (by simp [hidle]), by simp, by simp, by simp, by simp, fun _ => by simpa using hv⟩
  | delete key =>
    simp only [Inst.step] at h
    split at h
    · cases h
    · rename_i h0
      have hidle : s.phase = .idle := Decidable.byContradiction fun hne => h0 hne
      split at h
      · injection h with h; injection h with h1 h2; subst h1; exact ⟨w1, w2, w3, w4, w5, w6⟩
      split at h
      · injection h with h; injection h with h1 h2; subst h1; exact ⟨w1, w2, w3, w4, w5, w6⟩
      rename_i hv
      split at h
      · injection h with h; injection h with h1 h2; subst h1; exact ⟨w1, w2, w3, w4, w5, w6⟩
      injection h with h; injection h with h1 h2; subst h1
      exact ⟨fun hv _ => w1 hv (by simp [hidle]), by simp, by simp, by simp, by simp, fun _ => by simpa using hv⟩
  | clear =>
    simp only [Inst.step] at h
    split at h
    · cases h
    · rename_i h0
      have hidle : s.phase = .idle := Decidable.byContradiction fun hne => h0 hne
      split at h
      · injection h with h; injection h with h1 h2; subst h1; exact ⟨w1, w2, w3, w4, w5, w6⟩
      split at h
      · rename_i hv
        injection h with h; injection h with h1 h2; subst h1
        exact ⟨by simp [hv], by simp, fun _ _ => w3 hv (.inl hidle), by simp, fun _ => hv, by simp⟩
      · rename_i hv
        injection h with h; injection h with h1 h2; subst h1
        exact ⟨by simp, fun _ => w1 (by simpa using hv) (by simp [hidle]), by simp, by simp, fun _ => rfl, by simp⟩
  | drop =>
    simp only [Inst.step] at h
    split at h
    · cases h
    · injection h with h; injection h with h1 h2; subst h1
      exact ⟨by simp, by simp, by simp, fun _ => rfl, by simp, by simp⟩
  | io o =>
    simp only [Inst.step] at h
    split at h
    · cases h
    · rename_i lp hlp
      injection h with h; injection h with h1 h2; subst h1
      have hs := (Looper.sender_io hlp).1
      refine ⟨fun a b => by simpa [hs] using w1 a b, fun a => by simpa [hs] using w2 a, fun a b => ?_,
        fun a => by simpa [hs] using w4 a, w5, w6⟩
      rcases w3 a b with hd | hd <;> simp [Looper.ioStep, hd] at hlp
  | api i =>
    simp only [Inst.step] at h
    split at h
    · cases h
    · cases h
    · rename_i j hp
      injection h with h; injection h with h1 h2; subst h1
      obtain ⟨p1, p2, p3⟩ := Looper.push_same s.lp j
      refine ⟨fun a _ => by simpa [p1] using w1 a (by simp [hp]), by simp, by simp, by simp, by simp, fun _ => w6 (by simp [hp])⟩
    · rename_i hp
      injection h with h; injection h with h1 h2; subst h1
      obtain ⟨p1, p2, p3, p4⟩ := Looper.send_same s.lp
      refine ⟨fun a _ => by simpa [p1] using w1 a (by simp [hp]), by simp, fun a _ => ?_, by simp, by simp, by simp⟩
      have := w6 (by simp [hp]); simp only at a; rw [this] at a; cases a
    · rename_i hp
      injection h with h; injection h with h1 h2; subst h1
      obtain ⟨p1, p2, p3⟩ := Looper.push_same s.lp .remove
      refine ⟨fun a _ => by simpa [p1] using w1 a (by simp [hp]), fun _ => by simpa [p1] using w2 (by simp [hp]), by simp, by simp, fun _ => w5 (by simp [hp]), by simp⟩
    · rename_i hp
      obtain ⟨p1, p2, p3, p4⟩ := Looper.send_same s.lp
      split at h
      · injection h with h; injection h with h1 h2; subst h1
        refine ⟨fun a _ => by simpa [p1] using w1 a (by simp [hp]), fun _ => by simpa [p1] using w2 (by simp [hp]), by simp, by simp, fun _ => w5 (by simp [hp]), by simp⟩
      · rename_i hf
        injection h with h; injection h with h1 h2; subst h1
        refine ⟨fun a _ => by simpa [p1] using w1 a (by simp [hp]), by simp, fun _ _ => ?_, by simp, by simp, by simp⟩
        simp only [p2]
        exact p4 (by simpa using hf) (w2 (by simp [hp]))
    · rename_i hp
      obtain ⟨p1, p2, p3, p4⟩ := Looper.quit_same s.lp
      split at h
      · injection h with h; injection h with h1 h2; subst h1
        refine ⟨fun a _ => ?_, by simp, by simp, fun _ => p1, fun _ => w5 (by simp [hp]), by simp⟩
        have := w5 (by simp [hp]); simp only at a; rw [this] at a; cases a
      · rename_i hf
        injection h with h; injection h with h1 h2; subst h1
        refine ⟨fun a _ => ?_, by simp, fun _ _ => ?_, by simp, by simp, by simp⟩
        · have := w5 (by simp [hp]); simp only at a; rw [this] at a; cases a
        · simp only [p2]; exact p4 (by simpa using hf)
    · rename_i hp
      have hv := w5 (by simp [hp])
      split at h
      · rename_i he
        injection h with h; injection h with h1 h2; subst h1
        exact ⟨by simp [hv], by simp, fun _ _ => .inr he, by simp, fun _ => hv, by simp⟩
      · split at h
        · rename_i he
          injection h with h; injection h with h1 h2; subst h1
          exact ⟨by simp [hv], by simp, fun _ _ => .inl he, by simp, by simp, by simp⟩
        · cases h
    · rename_i hp
      have hv := w5 (by simp [hp])
      split at h
      · injection h with h; injection h with h1 h2; subst h1
        exact ⟨by simp [hv], by simp, fun _ _ => w3 hv (.inr hp), by simp, by simp, by simp⟩
      · rename_i s1 hs1
        split at h
        · injection h with h; injection h with h1 h2; subst h1; exact .fresh hs1
        · split at h
          · injection h with h; injection h with h1 h2; subst h1; exact .fresh hs1
          · split at h
            · injection h with h; injection h with h1 h2; subst h1; exact (Inst.Waits.fresh hs1).poison
            · cases h

theorem Inst.left_step {codecs : ι → Codec} {s s' : Inst ι} {e : Ev ι} {r : Option (Out Unit)}
    (h : Inst.step codecs s e = some (s', r)) :
    ((∃ i, e = .api i) → r = none → s'.left < s.left) ∧ ((∃ o, e = .io o) → s'.left < s.left) := by
  refine ⟨?_, ?_⟩
  · rintro ⟨i, rfl⟩ rfl
    simp only [Inst.step] at h
    split at h
    · cases h
    · cases h
    · rename_i j hp
      injection h with h; injection h with h1 h2; subst h1
      obtain ⟨p1, p2, p3⟩ := Looper.push_same s.lp j
      simp only [Inst.left, p3, hp, Phase.weight]; omega
    · injection h with h; injection h with h1 h2; cases h2
    · rename_i hp
      injection h with h; injection h with h1 h2; subst h1
      obtain ⟨p1, p2, p3⟩ := Looper.push_same s.lp .remove
      simp only [Inst.left, p3, hp, Phase.weight]; omega
    · rename_i hp
      obtain ⟨p1, p2, p3, p4⟩ := Looper.send_same s.lp
      split at h
      · injection h with h; injection h with h1 h2; subst h1
        simp only [Inst.left, hp, Phase.weight]; omega
      · injection h with h; injection h with h1 h2; cases h2
    · rename_i hp
      obtain ⟨p1, p2, p3, p4⟩ := Looper.quit_same s.lp
      split at h
      · injection h with h; injection h with h1 h2; subst h1
        simp only [Inst.left, hp, Phase.weight]; omega
      · injection h with h; injection h with h1 h2; cases h2
    · rename_i hp
      split at h
      · injection h with h; injection h with h1 h2; subst h1
        simp only [Inst.left, hp, Phase.weight]; omega
      · split at h
        · injection h with h; injection h with h1 h2; cases h2
        · cases h
    · split at h
      · injection h with h; injection h with h1 h2; cases h2
      · split at h
        · injection h with h; injection h with h1 h2; cases h2
        · split at h
          · injection h with h; injection h with h1 h2; cases h2
          · split at h
            · injection h with h; injection h with h1 h2; cases h2
            · cases h
  · rintro ⟨o, rfl⟩
    simp only [Inst.step] at h
    split at h
    · cases h
    · rename_i lp hlp
      injection h with h; injection h with h1 h2; subst h1
      have := Looper.measure_io o hlp
      simp only [Inst.left]; omega

/-- A call that has begun, or its thread, can go on. -/
theorem Inst.Waits.progress {codecs : ι → Codec} {s : Inst ι} (hw : s.Waits) (h1 : s.phase ≠ .idle) (h2 : s.phase ≠ .closed)
    (i : ι) (o : Order) : (Inst.step codecs s (.api i)).isSome ∨ (s.phase = .clrJoin ∧ (Inst.step codecs s (.io o)).isSome) := by
  cases hp : s.phase with
  | idle => exact absurd hp h1
  | closed => exact absurd hp h2
  | push j => exact .inl (by simp [Inst.step, hp])
  | send => exact .inl (by simp [Inst.step, hp])
  | clrPush => exact .inl (by simp [Inst.step, hp])
  | clrSend => refine .inl ?_; simp only [Inst.step, hp]; split <;> rfl
  | clrQuit => refine .inl ?_; simp only [Inst.step, hp]; split <;> rfl
  | clrJoin =>
    by_cases he : s.lp.io = .exited
    · exact .inl (by simp [Inst.step, hp, he])
    by_cases hd : s.lp.io = .dead
    · exact .inl (by simp [Inst.step, hp, hd])
    right
    obtain ⟨lp, hlp⟩ := Looper.io_progress (exec := fun o j cb => execJob (codecs s.idx) o j cb) o (hw.join (.inl hp)) he hd
    simp [Inst.step, hlp]
  | clrOpen =>
    left
    have hio := hw.failed (hw.clr (by simp [hp])) (.inr hp)
    simp only [Inst.step, hp]
    split
    · rfl
    · split
      · rfl
      · split
        · rfl
        · split
          · rfl
          · rename_i a b; exact absurd hio (by simp [a, b])

theorem Inst.Waits.withFile {s : Inst ι} (h : s.Waits) (f : Bytes) : (s.withFile f).Waits := ⟨h.1, h.2, h.3, h.4, h.5, h.6⟩
theorem Inst.Waits.atName {s : Inst ι} (h : s.Waits) (f : Option Bytes) : (s.atName f).Waits := ⟨h.1, h.2, h.3, h.4, h.5, h.6⟩
theorem Inst.left_withFile (s : Inst ι) (f : Bytes) : (s.withFile f).left = s.left := rfl

/-! ### The whole process -/

/-- Every store of the process is as `Waits` says. -/
def World.Waits (w : World ι) : Prop := ∀ (o : Nat) (ob : Obj ι), w.objs[o]? = some ob → ob.inst.Waits

theorem World.Waits.step {S : Sys ι} {w w' : World ι} {e : WEv ι} {r : WRes} (hw : w.Waits)
    (h : w.step S e = some (w', r)) : w'.Waits := by
  intro o ob hob
  cases step_moves h with
  | quiet ho => rw [ho] at hob; exact hw o ob hob
  | touched _ _ ho => rw [ho] at hob; exact hw o ob hob
  | opened hu hs ho =>
    rw [ho, List.getElem?_append] at hob
    split at hob
    · exact hw o ob hob
    · have := List.mem_of_getElem? hob
      simp only [List.mem_singleton] at this
      subst this
      exact .fresh hs
  | stepped ha hob' hst ho =>
    rw [ho] at hob
    rcases getElem?_set_cases hob with ⟨rfl, rfl⟩ | ⟨_, hx⟩
    · exact ((hw _ _ hob').withFile _).step hst
    · exact hw o ob hx
  | @reopened _ _ ob1 _ _ hob' hp hst ho =>
    rw [ho] at hob
    rcases getElem?_set_cases hob with ⟨rfl, rfl⟩ | ⟨_, hx⟩
    · unfold Inst.reopenStep at hst
      split at hst
      · injection hst with hst; injection hst with h1 h2; subst h1
        have W := hw _ _ hob'
        have hv := W.clr (by simp [hp])
        refine ⟨?_, by simp, fun _ _ => W.failed hv (.inr hp), by simp, by simp, by simp⟩
        intro hv'
        have hv' : ob1.inst.valid = true := hv'
        rw [hv] at hv'; cases hv'
      · exact ((hw _ _ hob').atName _).step hst
    · exact hw o ob hx

theorem World.Waits.run {S : Sys ι} (es : List (WEv ι)) {w w' : World ι} {rs : List WRes} (hw : w.Waits)
    (h : w.run S es = some (w', rs)) : w'.Waits := by
  induction es generalizing w rs with
  | nil => simp only [World.run, Option.some.injEq, Prod.mk.injEq] at h; obtain ⟨rfl, _⟩ := h; exact hw
  | cons e es ih =>
    unfold World.run at h
    split at h
    · cases h
    · rename_i w1 r1 h1
      split at h
      · cases h
      · rename_i w2 rs2 h2
        injection h with h; injection h with h3 h4; subst h3
        exact ih (hw.step h1) h2

theorem waits_reachable {S : Sys ι} {names : Nat → Option Nat} {inodes : List Bytes}
    {es : List (WEv ι)} {w : World ι} {rs : List WRes} (h : World.run S (start names inodes) es = some (w, rs)) : w.Waits :=
  World.Waits.run es (by intro o ob ho; simp [start] at ho) h

/-- The event is a step of store `o`: of the call that holds its write lock, or of its background thread. -/
def WEv.on (o : Nat) : WEv ι → Bool
  | .cont p _ => p == o
  | .io p _ => p == o
  | _ => false

/-- The event is a step of the background thread of store `o`. -/
def WEv.ioOn (o : Nat) : WEv ι → Bool
  | .io p _ => p == o
  | _ => false

/-- Some call on store `o` returned in this history. -/
def Returned (o : Nat) (es : List (WEv ι)) (rs : List WRes) : Prop := ∃ i r, (WEv.cont o i, WRes.ret r) ∈ es.zip rs

theorem reg_idle {S : Sys ι} {w : World ι} (R : Reg S w) {h : Nat} {hd : Handle} {ob : Obj ι} (hh : w.handles[h]? = some hd)
    (hg : hd.st ≠ .gone) (hob : w.objs[hd.obj]? = some ob) (hc : ob.caller = none) : ob.inst.phase = .idle := by
  have h1 := R.under hob
  have h2 := R.closed hob
  have h3 := strong_pos hh hg
  cases hp : ob.inst.phase <;> simp_all

theorem stepObj_isSome {S : Sys ι} {w : World ι} {o : Nat} {ob : Obj ι} {e : Ev ι} {c : Option Nat} (hob : w.objs[o]? = some ob)
    (h : (Inst.step S.codecs (ob.inst.withFile (w.content ob.inode)) e).isSome) : (w.stepObj S o e c).isSome := by
  unfold stepObj
  rw [hob]
  simp only
  split
  · rename_i hn; rw [hn] at h; cases h
  · rfl

/-- A mutation a program can ask for: a token it can build. -/
def _root_.Spec.Mutation.Buildable : Spec.Mutation → Prop
  | .put _ e => tokenOk e.token = true
  | _ => True

/-- **C41.** In every reachable state of the process, whatever the threads have been doing:
`new` never waits for a store or its thread; a call on a store whose lock is free goes ahead; a handle that no call is
using can be dropped, in both halves; a call that has begun and has not returned, or the background thread it waits for,
can make a step; and so can the thread of a store that is being closed, until it has ended. -/
theorem C41_no_deadlock {S : Sys ι} {names : Nat → Option Nat} {inodes : List Bytes} (hg : GoodNames names inodes)
    {es : List (WEv ι)} {w : World ι} {rs : List WRes} (hrun : World.run S (start names inodes) es = some (w, rs)) :
    (∀ dir i, (w.step S (.lookup dir)).isSome ∧ (w.step S (.create dir i)).isSome) ∧
    (∀ h hd ob m, w.handles[h]? = some hd → hd.st = .live → w.objs[hd.obj]? = some ob → ob.caller = none → m.Buildable →
      (w.step S (.call h hd.dir m)).isSome) ∧
    (∀ h hd ob, w.handles[h]? = some hd → hd.st = .live → w.objs[hd.obj]? = some ob → ob.caller ≠ some h →
      (w.step S (.drop1 h)).isSome) ∧
    (∀ h hd, w.handles[h]? = some hd → hd.st = .unlisted → (w.step S (.drop2 h)).isSome) ∧
    (∀ o ob, w.objs[o]? = some ob → ob.caller ≠ none → ∀ i ord,
      (w.step S (.cont o i)).isSome ∨ (w.step S (.io o ord)).isSome) ∧
    (∀ o ob, w.objs[o]? = some ob → w.strong o = 0 → ob.inst.lp.io ≠ .exited → ob.inst.lp.io ≠ .dead → ∀ ord,
      (w.step S (.io o ord)).isSome) := by
  have R := reg_reachable hg hrun
  have W := waits_reachable hrun
  have hbusy : ∀ {h : Nat} {hd : Handle} {ob : Obj ι}, w.handles[h]? = some hd → w.objs[hd.obj]? = some ob →
      ob.caller ≠ some h → w.busy h = false := by
    intro h hd ob hh hob hc
    cases hb : w.busy h with
    | false => rfl
    | true =>
      obtain ⟨o, ob', ho, hca⟩ := busy_iff.mp hb
      obtain ⟨hd', h1, h2, _⟩ := R.caller ho hca
      rw [hh] at h1; injection h1 with h1; subst h1; subst h2
      rw [hob] at ho; injection ho with ho; subst ho
      exact absurd hca hc
  refine ⟨fun dir i => ⟨?_, ?_⟩, fun h hd ob m hh hl hob hc hm => ?_, fun h hd ob hh hl hob hc => ?_, fun h hd hh hl => ?_,
    fun o ob hob hc i ord => ?_, fun o ob hob hs h1 h2 ord => ?_⟩
  · simp only [World.step]
    split
    · rfl
    · split <;> rfl
  · simp only [World.step]
    split
    · rfl
    · split
      · rfl
      · split
        · rfl
        · split
          · rfl
          · split <;> rfl
  · have hidle := reg_idle R hh (by simp [hl]) hob hc
    have hb := hbusy hh hob (by simp [hc])
    simp only [World.step, hh]
    rw [if_neg (by simp [hl, hb])]
    rw [Option.isSome_map]
    apply stepObj_isSome hob
    have hidle' : (ob.inst.withFile (w.content ob.inode)).phase = .idle := hidle
    cases m with
    | put k e =>
      simp only [evOf, Inst.step, hidle']
      rw [if_neg (by simpa [Mutation.Buildable] using hm)]
      split
      · rfl
      · split <;> rfl
    | delete k =>
      simp only [evOf, Inst.step, hidle']
      rw [if_neg (by simp)]
      split
      · rfl
      · split
        · rfl
        · split <;> rfl
    | clear =>
      simp only [evOf, Inst.step, hidle']
      rw [if_neg (by simp)]
      split
      · rfl
      · split <;> rfl
  · have hb := hbusy hh hob hc
    simp only [World.step, hh]
    rw [if_neg (by simp [hl, hb])]
    split <;> rfl
  · simp only [World.step, hh]
    rw [if_neg (by simp [hl])]
    split
    · rename_i h0
      obtain ⟨ob, hob, _⟩ := R.hobj hh
      rw [Option.isSome_map]
      refine stepObj_isSome (w := { w with handles := w.handles.set h { hd with st := .gone } }) hob ?_
      have hc : ob.caller = none := by
        cases hc : ob.caller with
        | none => rfl
        | some k =>
          obtain ⟨hd', h1, h2, h3⟩ := R.caller hob hc
          have hkh : h ≠ k := by
            rintro rfl
            rw [hh] at h1; injection h1 with h1; subst h1; rw [hl] at h3; cases h3
          have : World.strong { w with handles := w.handles.set h { hd with st := .gone } } hd'.obj ≠ 0 := by
            have := strong_pos (w := { w with handles := w.handles.set h { hd with st := .gone } }) (h := k) (hd := hd')
              (by simp only [List.getElem?_set_ne hkh]; exact h1) (by simp [h3])
            omega
          rw [h2] at this
          exact absurd h0 this
      have hidle := reg_idle R hh (by simp [hl]) hob hc
      have hidle' : (ob.inst.withFile (w.content ob.inode)).phase = .idle := hidle
      have : World.content { w with handles := w.handles.set h { hd with st := .gone } } ob.inode = w.content ob.inode := rfl
      rw [this]
      simp only [Inst.step, hidle']
      rfl
    · rfl
  · obtain ⟨p1, p2⟩ := (R.under hob).mp hc
    by_cases hp : ob.inst.phase = .clrOpen
    · left
      simp only [World.step, hob]
      rw [if_pos hp, Option.isSome_map]
      unfold reopen
      rcases ((W o ob hob).atName (w.fileAt (S.fileOf ob.dir))).progress (codecs := S.codecs) p1 p2 i ord with hx | ⟨hx, _⟩
      · split
        · rename_i hn
          unfold Inst.reopenStep at hn
          split at hn
          · cases hn
          · rw [hn] at hx; cases hx
        · rfl
      · have hx : ob.inst.phase = .clrJoin := hx
        rw [hp] at hx; cases hx
    · rcases ((W o ob hob).withFile (w.content ob.inode)).progress (codecs := S.codecs) p1 p2 i ord with hx | ⟨_, hx⟩
      · left
        simp only [World.step, hob]
        rw [if_neg hp, Option.isSome_map]
        exact stepObj_isSome hob hx
      · right
        simp only [World.step, hob]
        rw [Option.isSome_map]
        exact stepObj_isSome hob hx
  · have hcl := (R.closed hob).mpr hs
    simp only [World.step, hob]
    rw [Option.isSome_map]
    apply stepObj_isSome hob
    have hsd := (W o ob hob).join (.inr hcl)
    obtain ⟨lp, hlp⟩ := Looper.io_progress (s := (ob.inst.withFile (w.content ob.inode)).lp)
      (exec := fun o j cb => execJob (S.codecs (ob.inst.withFile (w.content ob.inode)).idx) o j cb) ord hsd h1 h2
    simp [Inst.step, hlp]

/-- A step that ends a call reports its result. -/
theorem api_idle {codecs : ι → Codec} {s s' : Inst ι} {i : ι} (hi : s'.phase = .idle) :
    Inst.step codecs s (.api i) ≠ some (s', none) := by
  intro h
  simp only [Inst.step] at h
  split at h
  · cases h
  · cases h
  · injection h with h; injection h with h1 h2; subst h1; cases hi
  · injection h with h; injection h with h1 h2; cases h2
  · injection h with h; injection h with h1 h2; subst h1; cases hi
  · split at h
    · injection h with h; injection h with h1 h2; subst h1; cases hi
    · injection h with h; injection h with h1 h2; cases h2
  · split at h
    · injection h with h; injection h with h1 h2; subst h1; cases hi
    · injection h with h; injection h with h1 h2; cases h2
  · split at h
    · injection h with h; injection h with h1 h2; subst h1; cases hi
    · split at h
      · injection h with h; injection h with h1 h2; cases h2
      · cases h
  · split at h
    · injection h with h; injection h with h1 h2; cases h2
    · split at h
      · injection h with h; injection h with h1 h2; cases h2
      · split at h
        · injection h with h; injection h with h1 h2; cases h2
        · split at h
          · injection h with h; injection h with h1 h2; cases h2
          · cases h

/-- While a call on store `o` has not returned, each step of store `o` uses up some of a finite amount, and nothing else
adds to it. -/
theorem left_step_world {S : Sys ι} {w w' : World ι} {e : WEv ι} {r : WRes} {o : Nat} {ob : Obj ι}
    (hob : w.objs[o]? = some ob) (hp : ob.inst.phase ≠ .idle) (h : w.step S e = some (w', r))
    (hr : ∀ i x, e = .cont o i → r ≠ .ret x) :
    ∃ ob', w'.objs[o]? = some ob' ∧ ob'.inst.phase ≠ .idle ∧ (ob.inst.phase = .closed → ob'.inst.phase = .closed) ∧
      ob'.inst.left + (if e.on o then 1 else 0) ≤ ob.inst.left := by
  have hlt := getElem?_lt hob
  have hphase : (ob.inst.withFile (w.content ob.inode)).phase = ob.inst.phase := rfl
  by_cases hon : e.on o = true
  · cases e with
    | cont p i =>
      have hpo : p = o := by simpa [WEv.on] using hon
      subst hpo
      simp only [World.step, hob] at h
      split at h
      · rename_i hopen
        rw [Option.map_eq_some_iff] at h
        obtain ⟨⟨w1, r1⟩, hso, hret⟩ := h
        injection hret with h1 h2; subst h1; subst h2
        cases r1 with
        | some x => exact absurd rfl (hr i x rfl)
        | none =>
          exfalso
          unfold reopen at hso
          split at hso
          · cases hso
          · rename_i s' r' hst
            generalize w.touch S.page (S.fileOf ob.dir) = tw at hso
            obtain ⟨w2, n⟩ := tw
            simp only at hso
            injection hso with hso; injection hso with h3 h4; subst h4
            have hopen' : (ob.inst.atName (w.fileAt (S.fileOf ob.dir))).phase = .clrOpen := hopen
            unfold Inst.reopenStep at hst
            split at hst
            · injection hst with hst; injection hst with h5 h6; cases h6
            simp only [Inst.step, hopen'] at hst
            split at hst
            · injection hst with hst; injection hst with h5 h6; cases h6
            · split at hst
              · injection hst with hst; injection hst with h5 h6; cases h6
              · split at hst
                · injection hst with hst; injection hst with h5 h6; cases h6
                · split at hst
                  · injection hst with hst; injection hst with h5 h6; cases h6
                  · cases hst
      · rename_i hopen
        rw [Option.map_eq_some_iff] at h
        obtain ⟨⟨w1, r1⟩, hso, hret⟩ := h
        injection hret with h1 h2; subst h1; subst h2
        cases r1 with
        | some x => exact absurd rfl (hr i x rfl)
        | none =>
          obtain ⟨ob1, s', hob1, hst, hw⟩ := stepObj_eq hso
          rw [hob] at hob1; injection hob1 with hob1; subst hob1
          obtain ⟨q1, q2, q3⟩ := (Inst.step_phase hst).2.1 i rfl
          refine ⟨_, by rw [hw]; exact List.getElem?_set_self hlt, ?_, fun hc => absurd hc q2, ?_⟩
          · intro hi
            have hi : s'.phase = .idle := hi
            exact absurd hst (api_idle hi)
          · have := (Inst.left_step hst).1 ⟨i, rfl⟩ rfl
            rw [Inst.left_withFile] at this
            simp only [hon, if_true]
            omega
    | io p ord =>
      have hpo : p = o := by simpa [WEv.on] using hon
      subst hpo
      simp only [World.step, hob] at h
      rw [Option.map_eq_some_iff] at h
      obtain ⟨⟨w1, r1⟩, hso, hret⟩ := h
      injection hret with h1 h2; subst h1; subst h2
      obtain ⟨ob1, s', hob1, hst, hw⟩ := stepObj_eq hso
      rw [hob] at hob1; injection hob1 with hob1; subst hob1
      have hph := (Inst.step_phase hst).2.2.1 ord rfl
      refine ⟨_, by rw [hw]; exact List.getElem?_set_self hlt, ?_, fun hc => ?_, ?_⟩
      · simpa [hph] using hp
      · simpa [hph] using hc
      · have := (Inst.left_step hst).2 ⟨ord, rfl⟩
        rw [Inst.left_withFile] at this
        simp only [hon, if_true]
        omega
    | _ => simp [WEv.on] at hon
  · rw [if_neg hon]
    cases step_moves h with
    | quiet ho => exact ⟨ob, by rw [ho]; exact hob, hp, id, by omega⟩
    | touched _ _ ho => exact ⟨ob, by rw [ho]; exact hob, hp, id, by omega⟩
    | opened hu hs ho => exact ⟨ob, by rw [ho, List.getElem?_append_left hlt]; exact hob, hp, id, by omega⟩
    | @stepped _ p ev ob1 s' c r ha hob' hst ho =>
      by_cases hpo : p = o
      · exfalso
        subst hpo
        rw [hob] at hob'; injection hob' with hob'; subst hob'
        have hsp := Inst.step_phase hst
        cases ha with
        | call => exact hp (hsp.1 (by rename_i m _ _ _ _; cases m <;> simp [evOf, Ev.call?])).1
        | cont => simp [WEv.on] at hon
        | io => simp [WEv.on] at hon
        | drop => exact hp (hsp.2.2.2 rfl).1
      · exact ⟨ob, by rw [ho, List.getElem?_set_ne hpo]; exact hob, hp, id, by omega⟩
    | @reopened p i ob1 s' r hob' hp' hst ho =>
      by_cases hpo : p = o
      · exact absurd (by simp [WEv.on, hpo]) hon
      · exact ⟨ob, by rw [ho, List.getElem?_set_ne hpo]; exact hob, hp, id, by omega⟩

theorem left_run_world {S : Sys ι} {o : Nat} (es : List (WEv ι)) {w w' : World ι} {rs : List WRes} {ob : Obj ι}
    (hob : w.objs[o]? = some ob) (hp : ob.inst.phase ≠ .idle) (h : w.run S es = some (w', rs)) (hr : ¬ Returned o es rs) :
    ∃ ob', w'.objs[o]? = some ob' ∧ ob'.inst.phase ≠ .idle ∧ (ob.inst.phase = .closed → ob'.inst.phase = .closed) ∧
      es.countP (·.on o) + ob'.inst.left ≤ ob.inst.left := by
  induction es generalizing w rs ob with
  | nil => simp only [World.run, Option.some.injEq, Prod.mk.injEq] at h; obtain ⟨rfl, _⟩ := h; exact ⟨ob, hob, hp, id, by simp⟩
  | cons e es ih =>
    unfold World.run at h
    split at h
    · cases h
    · rename_i w1 r1 h1
      split at h
      · cases h
      · rename_i w2 rs2 h2
        injection h with h; injection h with h3 h4; subst h3; subst h4
        obtain ⟨ob1, a1, a2, a3, a4⟩ := left_step_world hob hp h1
          (fun i x he hx => hr ⟨i, x, by subst he; subst hx; simp⟩)
        obtain ⟨ob2, b1, b2, b3, b4⟩ := ih a1 a2 h2 (fun ⟨i, x, hm⟩ => hr ⟨i, x, by simp [hm]⟩)
        refine ⟨ob2, b1, b2, fun hc => b3 (a3 hc), ?_⟩
        rw [List.countP_cons]
        split at a4 <;> simp_all <;> omega

theorem left_le (s : Inst ι) : s.left ≤ 3 * s.lp.chan.length + s.lp.queue.length + s.lp.buf.length + 15 := by
  unfold Inst.left Looper.measure Phase.weight
  split <;> split <;> omega

/-- **C41**, the other half: a call does not go on for ever either.  From any reachable state in which a call on store
`o` has begun and not returned, and whatever all the threads do from then on, once the store has made more steps (of
the call and of its background thread) than `3 * signals + queued jobs + 15`, the call has returned.  With
`C41_no_deadlock` (one of the two can always make the next step): under any scheduler that does not starve a thread for
ever, every call returns. -/
theorem C41_calls_return {S : Sys ι} {names : Nat → Option Nat} {inodes : List Bytes} (hg : GoodNames names inodes)
    {es : List (WEv ι)} {w : World ι} {rs : List WRes} (hrun : World.run S (start names inodes) es = some (w, rs))
    {o : Nat} {ob : Obj ι} (hob : w.objs[o]? = some ob) (hc : ob.caller ≠ none)
    {es' : List (WEv ι)} {w' : World ι} {rs' : List WRes} (hrun' : w.run S es' = some (w', rs'))
    (hmany : 3 * ob.inst.lp.chan.length + ob.inst.lp.queue.length + ob.inst.lp.buf.length + 15 < es'.countP (·.on o)) :
    Returned o es' rs' := by
  have R := reg_reachable hg hrun
  by_cases hr : Returned o es' rs'
  · exact hr
  obtain ⟨ob', _, _, _, h4⟩ := left_run_world es' hob ((R.under hob).mp hc).1 hrun' hr
  have := left_le ob.inst
  omega

/-- **C42** for a process: once the last handle of a store is released, its thread makes at most
`3 * signals + queued jobs + 15` more steps, whatever all other threads do, and as long as it has not ended it can make
one. -/
theorem C42_process_close_ends {S : Sys ι} {names : Nat → Option Nat} {inodes : List Bytes} (hg : GoodNames names inodes)
    {es : List (WEv ι)} {w : World ι} {rs : List WRes} (hrun : World.run S (start names inodes) es = some (w, rs))
    {o : Nat} {ob : Obj ι} (hob : w.objs[o]? = some ob) (hs : w.strong o = 0)
    {es' : List (WEv ι)} {w' : World ι} {rs' : List WRes} (hrun' : w.run S es' = some (w', rs')) :
    es'.countP (·.ioOn o) ≤ 3 * ob.inst.lp.chan.length + ob.inst.lp.queue.length + ob.inst.lp.buf.length + 15 ∧
    ∃ ob', w'.objs[o]? = some ob' ∧
      (ob'.inst.lp.io = .exited ∨ ob'.inst.lp.io = .dead ∨ ∀ ord, (w'.step S (.io o ord)).isSome) := by
  have R := reg_reachable hg hrun
  have hcl := (R.closed hob).mpr hs
  have hno : ∀ (es' : List (WEv ι)) (w w' : World ι) (rs' : List WRes) (ob : Obj ι), Reg S w → w.objs[o]? = some ob → ob.inst.phase = .closed →
      w.run S es' = some (w', rs') → ¬ Returned o es' rs' ∧ es'.countP (·.ioOn o) ≤ es'.countP (·.on o) := by
    intro es'
    induction es' with
    | nil => intro w w' rs' ob _ _ _ h; simp [Returned]
    | cons e es' ih =>
      intro w w' rs' ob R hob hcl h
      unfold World.run at h
      split at h
      · cases h
      · rename_i w1 r1 h1
        split at h
        · cases h
        · rename_i w2 rs2 h2
          injection h with h; injection h with h3 h4; subst h3; subst h4
          have hne : ∀ i, e ≠ .cont o i := by
            rintro i rfl
            simp only [World.step, hob] at h1
            rw [if_neg (by simp [hcl])] at h1
            rw [Option.map_eq_some_iff] at h1
            obtain ⟨⟨w3, r3⟩, hso, _⟩ := h1
            obtain ⟨ob1, s', hob1, hst, _⟩ := stepObj_eq hso
            rw [hob] at hob1; injection hob1 with hob1; subst hob1
            exact ((Inst.step_phase hst).2.1 i rfl).2.1 hcl
          obtain ⟨ob1, a1, a2, a3, a4⟩ := left_step_world hob (by simp [hcl]) h1 (fun i x he => absurd he (hne i))
          obtain ⟨b1, b2⟩ := ih w1 w2 rs2 ob1 (R.step h1) a1 (a3 hcl) h2
          refine ⟨?_, ?_⟩
          · rintro ⟨i, x, hm⟩
            simp only [List.zip_cons_cons, List.mem_cons, Prod.mk.injEq] at hm
            rcases hm with ⟨he, _⟩ | hm
            · exact hne i he.symm
            · exact b1 ⟨i, x, hm⟩
          · rw [List.countP_cons, List.countP_cons]
            have : (if e.ioOn o = true then 1 else 0) ≤ (if e.on o = true then 1 else 0) := by
              cases e <;> simp [WEv.ioOn, WEv.on]
            omega
  obtain ⟨n1, n2⟩ := hno es' w w' rs' ob R hob hcl hrun'
  obtain ⟨ob', h1, h2, h3, h4⟩ := left_run_world es' hob (by simp [hcl]) hrun' n1
  have := left_le ob.inst
  refine ⟨by omega, ob', h1, ?_⟩
  by_cases e1 : ob'.inst.lp.io = .exited
  · exact .inl e1
  by_cases e2 : ob'.inst.lp.io = .dead
  · exact .inr (.inl e2)
  have W := (waits_reachable hrun).run es' hrun'
  refine .inr (.inr fun ord => ?_)
  simp only [World.step, h1]
  rw [Option.isSome_map]
  apply stepObj_isSome h1
  obtain ⟨lp, hlp⟩ := Looper.io_progress (s := (ob'.inst.withFile (w'.content ob'.inode)).lp)
    (exec := fun o j cb => execJob (S.codecs (ob'.inst.withFile (w'.content ob'.inode)).idx) o j cb) ord
    ((W o ob' h1).join (.inr (h3 hcl))) e1 e2
  simp [Inst.step, hlp]

/-! ### The hypotheses can be met -/

/-- A `clear_data` that waits for its thread, with a put still queued; another store is in the middle of a put. -/
def waiting : List (WEv Unit) :=
  [.create "a" (), .create "b" ()] ++ wput 0 0 "a" "k" 1 ++
  [.call 0 "a" .clear, .cont 0 (), .cont 0 (), .cont 0 (), .call 1 "b" (.delete "k"), .call 1 "b" (.put "k" ⟨0, [0, 0, 0, 1]⟩)]

example : (((start (fun _ => none) []).run twoDirs waiting).map fun p => p.1.objs.map fun ob => (ob.inst.phase, ob.caller)) =
    some [(.clrJoin, some 0), (.push (.write ⟨"k", 0, [0, 0, 0, 1]⟩ false), some 1)] := by decide +kernel

/-- `clear_data` cannot go on by itself, its thread can; after that it returns. -/
example : (((start (fun _ => none) []).run twoDirs waiting).map fun p =>
      ((p.1.step twoDirs (.cont 0 ())).isSome, (p.1.step twoDirs (.io 0 id)).isSome,
        (p.1.run twoDirs (List.replicate 9 (.io 0 id) ++ [.cont 0 (), .cont 0 ()])).map (·.2.getLast?))) =
    some (false, true, some (some (.ret (.ok ())))) := by decide +kernel

/-- A store whose last handle is gone, with work left. -/
example : (((start (fun _ => none) []).run twoDirs ([.create "a" ()] ++ wput 0 0 "a" "k" 1 ++ [.drop1 0, .drop2 0])).map fun p =>
      (p.1.strong 0, p.1.objs.map fun ob => (ob.inst.lp.queue.length, ob.inst.lp.io))) = some (0, [(1, .recv)]) := by
  decide +kernel

end Mmkv
