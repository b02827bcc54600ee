import Mathlib.Data.List.Dedup
import Mathlib.Data.List.Perm.Subperm
import Mathlib.Data.List.Nodup
import Mathlib.Data.List.Infix
import Verif.Model.Resources
import Verif.Props.Deadlock
import Verif.Props.Process
/-!
# C99: descriptors, mappings and threads are given back
-/

namespace Mmkv
open Spec World
variable {ι : Type}

/-! ### The specification -/

/-- How many of a kind were taken from the system. -/
def taken (r : Rsc) (t : List RAct) : Nat := t.count (.take r)

/-- How many of a kind were given back. -/
def given (r : Rsc) (t : List RAct) : Nat := t.count (.give r)

/-- The background thread of the store is still there. -/
def Inst.running (s : Inst ι) : Bool := s.lp.io != .exited && s.lp.io != .dead

/-- How many stores have a background thread. -/
def World.running (w : World ι) : Nat := w.objs.countP (·.inst.running)

/-- Some handle in use points to store `o`. -/
def World.used (w : World ι) (o : Nat) : Bool := w.handles.any fun hd => hd.obj == o && hd.st == .live

/-- The directory strings that handles in use were made with, each once. -/
def World.dirsInUse (w : World ι) : List String := ((w.handles.filter fun hd => hd.st == .live).map (·.dir)).dedup

/-- How many stores are being closed: no handle in use is left, the background thread has not yet ended. -/
def World.closing (w : World ι) : Nat :=
  (List.range w.objs.length).countP fun o => !w.used o && (w.objs[o]?.map (·.inst.running)).getD false

/-! ### Counting -/

theorem taken_append (r : Rsc) (a b : List RAct) : taken r (a ++ b) = taken r a + taken r b := by simp [taken]
theorem given_append (r : Rsc) (a b : List RAct) : given r (a ++ b) = given r a + given r b := by simp [given]

theorem countP_set_some {α : Type} (p : α → Bool) : ∀ {l : List α} {n : Nat} {x : α} (a : α), l[n]? = some x →
    (l.set n a).countP p + (if p x then 1 else 0) = l.countP p + (if p a then 1 else 0)
  | [], n, x, a, h => by simp at h
  | y :: l, 0, x, a, h => by
    simp only [List.getElem?_cons_zero, Option.some.injEq] at h; subst h
    simp only [List.set_cons_zero, List.countP_cons]; omega
  | y :: l, n + 1, x, a, h => by
    simp only [List.getElem?_cons_succ] at h
    have := countP_set_some p a h
    simp only [List.set_cons_succ, List.countP_cons]; omega

theorem grow_acts (r : Rsc) (n : Nat) :
    taken r (List.replicate n [RAct.take .map, .give .map]).flatten = given r (List.replicate n [RAct.take .map, .give .map]).flatten := by
  induction n with
  | zero => rfl
  | succ n ih =>
    rw [List.replicate_succ, List.flatten_cons, taken_append, given_append, ih]
    cases r <;> rfl

/-- Every prefix of a growth. -/
theorem grow_prefix (r : Rsc) (n : Nat) (p : List RAct) (h : p <+: (List.replicate n [RAct.take .map, .give .map]).flatten) :
    given r p ≤ taken r p ∧ taken r p ≤ given r p + 1 := by
  induction n generalizing p with
  | zero => simp at h; subst h; simp [taken, given]
  | succ n ih =>
    rw [List.replicate_succ, List.flatten_cons] at h
    rcases p with _ | ⟨a, _ | ⟨b, p⟩⟩
    · simp [taken, given]
    · simp only [List.cons_append, List.cons_prefix_cons] at h
      obtain ⟨rfl, _⟩ := h
      cases r <;> decide
    · simp only [List.cons_append, List.nil_append, List.cons_prefix_cons] at h
      obtain ⟨rfl, rfl, h⟩ := h
      have := ih p h
      have e : (RAct.take .map :: RAct.give .map :: p) = [RAct.take .map, .give .map] ++ p := rfl
      rw [e, taken_append, given_append]
      have : taken r [RAct.take .map, .give .map] = given r [RAct.take .map, .give .map] := by cases r <;> rfl
      omega

theorem open_acts (r : Rsc) (k o : Bool) :
    taken r (openActs k o) = given r (openActs k o) + (if k && o then 1 else 0) := by
  cases r <;> cases k <;> cases o <;> rfl

theorem open_prefix (r : Rsc) (k o : Bool) (p : List RAct) (h : p <+: openActs k o) :
    given r p ≤ taken r p ∧ taken r p ≤ given r p + 1 := by
  have : ∀ p ∈ (openActs k o).inits, given r p ≤ taken r p ∧ taken r p ≤ given r p + 1 := by
    cases r <;> cases k <;> cases o <;> decide
  exact this p ((List.mem_inits _ _).mpr h)

theorem end_prefix (r : Rsc) (p : List RAct) (h : p <+: endActs) : taken r p = 0 ∧ given r p ≤ 1 := by
  have : ∀ p ∈ endActs.inits, taken r p = 0 ∧ given r p ≤ 1 := by cases r <;> decide
  exact this p ((List.mem_inits _ _).mpr h)

/-! ### One event -/

/-- A step of a store that is not one of its thread leaves the thread where it is, unless it ends a `clear_data`. -/
theorem Inst.step_io {codecs : ι → Codec} {s s' : Inst ι} {e : Ev ι} {r : Option (Out Unit)}
    (h : Inst.step codecs s e = some (s', r)) (hio : ∀ o, e ≠ .io o) (hp : s.phase ≠ .clrOpen) : s'.lp.io = s.lp.io := by
  cases e with
  | io o => exact absurd rfl (hio o)
  | put k t b =>
    simp only [Inst.step] at h
    repeat' split at h
    all_goals first
      | cases h; done
      | (injection h with h; injection h with a b; subst a; rfl)
  | delete k =>
    simp only [Inst.step] at h
    repeat' split at h
    all_goals first
      | cases h; done
      | (injection h with h; injection h with a b; subst a; rfl)
  | clear =>
    simp only [Inst.step] at h
    repeat' split at h
    all_goals first
      | cases h; done
      | (injection h with h; injection h with a b; subst a; rfl)
  | drop =>
    simp only [Inst.step] at h
    split at h
    · cases h
    · injection h with h; injection h with a b; subst a; rfl
  | api i =>
    have hpush : ∀ j, (Looper.push s.lp j).io = s.lp.io := by intro j; unfold Looper.push; split <;> rfl
    have hsend : (Looper.send s.lp).1.io = s.lp.io := by unfold Looper.send; split <;> (try split) <;> rfl
    have hquit : (Looper.quitSend s.lp).1.io = s.lp.io := by unfold Looper.quitSend; split <;> (try split) <;> rfl
    simp only [Inst.step] at h
    split at h
    · cases h
    · cases h
    · injection h with h; injection h with a b; subst a; exact hpush _
    · injection h with h; injection h with a b; subst a; exact hsend
    · injection h with h; injection h with a b; subst a; exact hpush _
    · split at h <;> (injection h with h; injection h with a b; subst a; exact hsend)
    · split at h <;> (injection h with h; injection h with a b; subst a; exact hquit)
    · split at h
      · injection h with h; injection h with a b; subst a; rfl
      · split at h
        · injection h with h; injection h with a b; subst a; rfl
        · cases h
    · rename_i hx; exact absurd hx hp

/-- A step of the thread: what it gives back is what having a thread means. -/
theorem io_acts {exec : Order → Job → Cb → Run Cb} {page : Nat} {ord : Order} {s s' : Looper.St Order Job Cb} (r : Rsc)
    (h : Looper.ioStep exec ord s = some s') :
    (s.io ≠ .exited ∧ s.io ≠ .dead) ∧
    taken r (ioActs page s s') + 1 = given r (ioActs page s s') + (if s'.io ≠ .exited ∧ s'.io ≠ .dead then 1 else 0) := by
  have hE : taken r endActs + 1 = given r endActs := by cases r <;> rfl
  unfold ioActs
  have hG := grow_acts r ((s'.cb.ws.file.length - s.cb.ws.file.length) / page)
  unfold Looper.ioStep at h
  split at h
  · rename_i hio
    split at h
    · injection h with h; subst h; simp [hio, taken, given]
    · injection h with h; subst h; simp [hio, hE]
    · split at h
      · cases h
      · injection h with h; subst h; simp [hio, hE]
  · rename_i hio; injection h with h; subst h; simp [hio, taken, given]
  · rename_i hio
    split at h
    · injection h with h; subst h; simp [hio, taken, given]
    · split at h
      · injection h with h; subst h
        simp only at hG
        simp [hio, hG]
      · injection h with h; subst h
        simp only at hG
        simp [hio, hG]
  · rename_i hio; injection h with h; subst h; simp [hio, hE]
  · cases h
  · cases h

theorem openAt_running {codecs : ι → Codec} {i : ι} {p : Nat} {f : Bytes} {u : Nat} {q : Option Nat} {x : Inst ι}
    (h : Inst.openAt codecs i p f u q = some x) : x.running = true := by
  unfold Inst.openAt at h
  split at h
  · cases h
  · injection h with h; subst h; rfl

/-- The end of a `clear_data`. -/
theorem reopen_acts {S : Sys ι} {s s' : Inst ι} {i : ι} {r : Option (Out Unit)} (hp : s.phase = .clrOpen)
    (hd : s.lp.io = .dead ∨ s.lp.io = .exited) (h : s.reopenStep S i = some (s', r)) :
    s'.running = (S.keyOk i && (Inst.openAt S.codecs (if s.lp.cb.removed then i else s.idx) s.lp.cb.ws.page s.disk
          s.lp.cb.ws.usizeBytes s.lp.cb.ws.quota).isSome) := by
  have hrun : s.running = false := by rcases hd with hd | hd <;> simp [Inst.running, hd]
  unfold Inst.reopenStep at h
  split at h
  · rename_i hk
    injection h with h; injection h with a b; subst a
    rw [hk]; exact hrun
  · rename_i hk
    simp only [Bool.not_eq_false] at hk
    simp only [Inst.step, hp] at h
    split at h
    · rename_i ho
      injection h with h; injection h with a b; subst a
      simp only [hk, ho, Option.isSome_none, Bool.and_false]; exact hrun
    · rename_i x ho
      have hx := openAt_running ho
      simp only [hk, ho, Option.isSome_some, Bool.and_true]
      split at h
      · injection h with h; injection h with a b; subst a; exact hx
      · split at h
        · injection h with h; injection h with a b; subst a; exact hx
        · split at h
          · injection h with h; injection h with a b; subst a; exact hx
          · cases h

/-- One event keeps the balance, and never gives back what it has not, not even half-way. -/
theorem acts_step {S : Sys ι} {w w' : World ι} {e : WEv ι} {res : WRes} (hw : w.Waits) (h : w.step S e = some (w', res))
    (r : Rsc) :
    w'.running + given r (w.acts S e) = w.running + taken r (w.acts S e) ∧
    ∀ p, p <+: w.acts S e → given r p ≤ w.running + taken r p ∧ taken r p ≤ given r p + 1 := by
  have hnil : w'.objs = w.objs → w.acts S e = [] →
      w'.running + given r (w.acts S e) = w.running + taken r (w.acts S e) ∧
      ∀ p, p <+: w.acts S e → given r p ≤ w.running + taken r p ∧ taken r p ≤ given r p + 1 := by
    intro ho ha
    rw [ha]
    refine ⟨by simp [World.running, ho, taken, given], fun p hp => ?_⟩
    rw [List.prefix_nil.mp hp]; simp [taken, given]
  have hpre : ∀ k o, w.acts S e = openActs k o → ∀ p, p <+: w.acts S e → given r p ≤ w.running + taken r p ∧ taken r p ≤ given r p + 1 := by
    intro k o ha p hp
    rw [ha] at hp
    have := open_prefix r k o p hp
    omega
  have hstep : ∀ {w0 : World ι} {o : Nat} {ev : Ev ι} {c : Option Nat} {r' : Option (Out Unit)}, w0.objs = w.objs →
      w0.stepObj S o ev c = some (w', r') → (∀ ord, ev ≠ .io ord) →
      (∀ ob, w.objs[o]? = some ob → ob.inst.phase ≠ .clrOpen) → w'.running = w.running := by
    intro w0 o ev c r' h0 hso hio hph
    obtain ⟨ob, s', hob, hst, rfl⟩ := stepObj_eq hso
    rw [h0] at hob
    have hi := Inst.step_io hst hio (hph ob hob)
    have hi : s'.running = ob.inst.running := by unfold Inst.running; rw [hi]; rfl
    have := countP_set_some (fun x : Obj ι => x.inst.running)
      ({ ob with inst := s', caller := if s'.phase = .idle then none else c } : Obj ι) hob
    simp only [hi] at this
    simp only [World.running, h0]; omega
  have hnil' : w'.running = w.running → w.acts S e = [] →
      w'.running + given r (w.acts S e) = w.running + taken r (w.acts S e) ∧
      ∀ p, p <+: w.acts S e → given r p ≤ w.running + taken r p ∧ taken r p ≤ given r p + 1 := by
    intro ho ha
    rw [ha]
    refine ⟨by simp [ho, taken, given], fun p hp => ?_⟩
    rw [List.prefix_nil.mp hp]; simp [taken, given]
  cases e with
  | lookup dir =>
    refine hnil ?_ rfl
    simp only [World.step] at h
    split at h
    · injection h with h; injection h with a b; subst a; rfl
    · split at h <;> (injection h with h; injection h with a b; subst a; rfl)
  | drop1 k =>
    refine hnil ?_ rfl
    simp only [World.step] at h
    split at h
    · cases h
    · split at h
      · cases h
      · split at h <;> (injection h with h; injection h with a b; subst a; rfl)
  | call k d m =>
    refine hnil' ?_ rfl
    simp only [World.step] at h
    split at h
    · cases h
    · rename_i hd hh
      split at h
      · cases h
      · rw [Option.map_eq_some_iff] at h
        obtain ⟨⟨a, b⟩, hso, hb⟩ := h
        simp only [Prod.mk.injEq] at hb
        obtain ⟨rfl, _⟩ := hb
        refine hstep rfl hso (by cases m <;> simp [evOf]) fun ob hob hp => ?_
        obtain ⟨ob', s', hob', hst, _⟩ := stepObj_eq hso
        rw [hob] at hob'; injection hob' with hob'; subst hob'
        cases m <;> simp [evOf, Inst.step, Inst.withFile, hp] at hst
  | drop2 k =>
    simp only [World.step] at h
    split at h
    · cases h
    · split at h
      · cases h
      · split at h
        · refine hnil' ?_ rfl
          rw [Option.map_eq_some_iff] at h
          obtain ⟨⟨a, b⟩, hso, hb⟩ := h
          simp only [Prod.mk.injEq] at hb
          obtain ⟨rfl, _⟩ := hb
          refine hstep (by rfl) hso (fun _ h => by cases h) fun ob hob hp => ?_
          obtain ⟨ob', s', hob', hst, _⟩ := stepObj_eq hso
          have hob' : w.objs[_]? = some ob' := hob'
          rw [hob] at hob'; injection hob' with hob'; subst hob'
          simp [Inst.step, Inst.withFile, hp] at hst
        · refine hnil ?_ rfl
          injection h with h; injection h with a b; subst a; rfl
  | create dir i =>
    simp only [World.step] at h
    split at h
    · rename_i hp
      refine hnil ?_ (by simp [World.acts, hp])
      injection h with h; injection h with a b; subst a; rfl
    · rename_i hp
      split at h
      · rename_i o hu
        refine hnil ?_ (by simp [World.acts, hu])
        injection h with h; injection h with a b; subst a; rfl
      · rename_i hu
        split at h
        · rename_i hd
          refine hnil ?_ (by simp [World.acts, hd])
          injection h with h; injection h with a b; subst a; rfl
        · rename_i hd
          have ha : w.acts S (.create dir i) = openActs (S.keyOk i)
              (Inst.openAt S.codecs i S.page ((w.touch S.page (S.fileOf dir)).1.content (w.touch S.page (S.fileOf dir)).2)).isSome := by
            simp only [World.acts]
            rw [if_neg]
            simp only [not_or]
            exact ⟨hp, by simp [hu], hd⟩
          refine ⟨?_, hpre _ _ ha⟩
          have hto := (touch_objs w S.page (S.fileOf dir)).1
          rw [ha, open_acts]
          split at h
          · rename_i hk
            injection h with h; injection h with a b; subst a
            simp [World.running, hto, hk, Nat.add_comm]
          · rename_i hk
            simp only [Bool.not_eq_false] at hk
            split at h
            · rename_i ho
              injection h with h; injection h with a b; subst a
              simp [World.running, hto, ho, Nat.add_comm]
            · rename_i s ho
              injection h with h; injection h with a b; subst a
              have hs := openAt_running ho
              simp [World.running, hto, ho, hk, hs]; omega
  | cont o i =>
    simp only [World.step] at h
    split at h
    · cases h
    · rename_i ob hob
      rw [Option.map_eq_some_iff] at h
      obtain ⟨⟨a, b⟩, hso, hb⟩ := h
      simp only [Prod.mk.injEq] at hb
      obtain ⟨rfl, _⟩ := hb
      split at hso
      · rename_i hp
        have ha : w.acts S (.cont o i) = openActs (S.keyOk i) (Inst.openAt S.codecs
            (if (ob.inst.atName (w.fileAt (S.fileOf ob.dir))).lp.cb.removed then i else (ob.inst.atName (w.fileAt (S.fileOf ob.dir))).idx)
            (ob.inst.atName (w.fileAt (S.fileOf ob.dir))).lp.cb.ws.page (ob.inst.atName (w.fileAt (S.fileOf ob.dir))).disk
            (ob.inst.atName (w.fileAt (S.fileOf ob.dir))).lp.cb.ws.usizeBytes
            (ob.inst.atName (w.fileAt (S.fileOf ob.dir))).lp.cb.ws.quota).isSome := by
          simp only [World.acts, hob, if_pos hp]
        refine ⟨?_, hpre _ _ ha⟩
        rw [ha, open_acts]
        unfold World.reopen at hso
        split at hso
        · cases hso
        · rename_i s' r' hst
          simp only [Option.some.injEq, Prod.mk.injEq] at hso
          obtain ⟨rfl, _⟩ := hso
          have hW := hw o ob hob
          have hdead := hW.failed (hW.clr (by simp [hp])) (.inr hp)
          have hrun : ob.inst.running = false := by rcases hdead with hd | hd <;> simp [Inst.running, hd]
          have := reopen_acts (S := S) (s := ob.inst.atName (w.fileAt (S.fileOf ob.dir))) hp hdead hst
          have hc := countP_set_some (fun x : Obj ι => x.inst.running)
            ({ ob with inst := s', inode := (w.touch S.page (S.fileOf ob.dir)).2, caller := none } : Obj ι) hob
          simp only [hrun, this] at hc
          simp only [World.running, (touch_objs w S.page (S.fileOf ob.dir)).1]
          simp only [Bool.false_eq_true, if_false, Nat.add_zero] at hc
          omega
      · rename_i hp
        refine hnil' (hstep rfl hso (by simp) fun ob' hob' => ?_) (by simp only [World.acts, hob, if_neg hp])
        rw [hob] at hob'; injection hob' with hob'; subst hob'; exact hp
  | io o ord =>
    simp only [World.step] at h
    split at h
    · cases h
    · rename_i ob hob
      rw [Option.map_eq_some_iff] at h
      obtain ⟨⟨a, b⟩, hso, hb⟩ := h
      simp only [Prod.mk.injEq] at hb
      obtain ⟨rfl, _⟩ := hb
      obtain ⟨ob', s', hob', hst, rfl⟩ := stepObj_eq hso
      rw [hob] at hob'; injection hob' with hob'; subst hob'
      have ha : w.acts S (.io o ord) = ioActs ob.inst.lp.cb.ws.page (ob.inst.withFile (w.content ob.inode)).lp s'.lp := by
        simp only [World.acts, hob, hst]; rfl
      have hst' := hst
      simp only [Inst.step] at hst'
      split at hst'
      · cases hst'
      · rename_i lp hlp
        injection hst' with hst'; injection hst' with a b; subst a
        have hb := io_acts (page := ob.inst.lp.cb.ws.page) r hlp
        have hrun : ob.inst.running = true := by
          have := hb.1
          have h1 : ob.inst.lp.io ≠ .exited := this.1
          have h2 : ob.inst.lp.io ≠ .dead := this.2
          simp [Inst.running, h1, h2]
        have hc := countP_set_some (fun x : Obj ι => x.inst.running)
          ({ ob with inst := { ob.inst.withFile (w.content ob.inode) with lp := lp },
                     caller := if ({ ob.inst.withFile (w.content ob.inode) with lp := lp } : Inst ι).phase = .idle then none else ob.caller } : Obj ι) hob
        have hpos : 0 < w.running := List.countP_pos_iff.mpr ⟨ob, List.mem_of_getElem? hob, hrun⟩
        have hrl : (if ({ ob.inst.withFile (w.content ob.inode) with lp := lp } : Inst ι).running = true then 1 else 0) =
            (if lp.io ≠ .exited ∧ lp.io ≠ .dead then 1 else 0) := by
          simp [Inst.running]
        refine ⟨?_, fun p hp => ?_⟩
        · rw [ha]
          simp only [hrun, if_true] at hc
          rw [hrl] at hc
          have := hb.2
          simp only [World.running]
          omega
        · rw [ha] at hp
          unfold ioActs at hp
          split at hp
          · have := end_prefix r p hp; omega
          · have := grow_prefix r _ p hp; omega

/-! ### C99 -/

theorem trace_run {S : Sys ι} (r : Rsc) (es : List (WEv ι)) {w w' : World ι} {rs : List WRes} (hw : w.Waits)
    (h : w.run S es = some (w', rs)) : w'.running + given r (w.trace S es) = w.running + taken r (w.trace S es) := by
  induction es generalizing w rs with
  | nil => simp only [World.run, Option.some.injEq, Prod.mk.injEq] at h; obtain ⟨rfl, _⟩ := h; simp [World.trace, taken, given]
  | cons e es ih =>
    unfold World.run at h
    split at h
    · cases h
    · rename_i w1 r1 h1
      split at h
      · cases h
      · rename_i w2 rs2 h2
        injection h with h; injection h with h3 h4; subst h3
        have a := (acts_step hw h1 r).1
        have b := ih (hw.step h1) h2
        simp only [World.trace, h1, taken_append, given_append]
        omega

/-- **C99**, the balance.  In every history of the process, at every moment: of each kind (descriptors of data files, mappings of data
files, background threads) exactly as many are held as there are stores whose background thread has not ended.  In particular an open
that panicked has given back what it took, a thread that died of a panic has too, and a `clear_data` has before it opens the file
again. -/
theorem C99_balance {S : Sys ι} {names : Nat → Option Nat} {inodes : List Bytes}
    {es : List (WEv ι)} {w : World ι} {rs : List WRes} (h : World.run S (start names inodes) es = some (w, rs)) (r : Rsc) :
    taken r (World.trace S (start names inodes) es) = given r (World.trace S (start names inodes) es) + w.running := by
  have := trace_run r es (w := start names inodes) (by intro o ob ho; simp [start] at ho) h
  simp only [World.running, start, List.countP_nil] at this
  simp only [World.running]
  unfold start
  omega

/-- **C99**, half-way.  Also in the middle of an event (`p` is what it has done so far): nothing is given back that is not held, so no
descriptor is closed twice and no mapping is unmapped twice, and at most one more of each kind is held than there were background
threads when the event began. -/
theorem C99_midway {S : Sys ι} {names : Nat → Option Nat} {inodes : List Bytes}
    {es : List (WEv ι)} {w w' : World ι} {rs : List WRes} (h : World.run S (start names inodes) es = some (w, rs))
    {e : WEv ι} {res : WRes} (he : w.step S e = some (w', res)) {p : List RAct} (hp : p <+: w.acts S e) (r : Rsc) :
    given r (World.trace S (start names inodes) es ++ p) ≤ taken r (World.trace S (start names inodes) es ++ p) ∧
    taken r (World.trace S (start names inodes) es ++ p) ≤
      given r (World.trace S (start names inodes) es ++ p) + w.running + 1 := by
  have a := C99_balance h r
  have b := (acts_step (waits_reachable h) he r).2 p hp
  rw [taken_append, given_append]
  omega

/-- A handle in use, if the store is in use. -/
theorem used_iff {w : World ι} {o : Nat} : w.used o = true ↔ ∃ (h : Nat) (hd : Handle), w.handles[h]? = some hd ∧ hd.obj = o ∧ hd.st = .live := by
  unfold World.used
  rw [List.any_eq_true]
  constructor
  · rintro ⟨hd, hm, hc⟩
    obtain ⟨k, hk⟩ := List.getElem?_of_mem hm
    simp only [Bool.and_eq_true, beq_iff_eq] at hc
    exact ⟨k, hd, hk, hc.1, hc.2⟩
  · rintro ⟨k, hd, hk, h1, h2⟩
    exact ⟨hd, List.mem_of_getElem? hk, by simp [h1, h2]⟩

theorem countP_range {α : Type} (p : α → Bool) : ∀ (l : List α), l.countP p = (List.range l.length).countP fun n => (l[n]?.map p).getD false
  | [] => rfl
  | a :: l => by
    rw [List.length_cons, List.range_succ_eq_map, List.countP_cons, List.countP_cons, List.countP_map, countP_range p l]
    rfl

/-- As many stores as there are strings have a handle in use. -/
theorem used_le {S : Sys ι} {w : World ι} (R : Reg S w) :
    (List.range w.objs.length).countP w.used ≤ w.dirsInUse.length := by
  rw [List.countP_eq_length_filter]
  let dirOf : Nat → String := fun o => (w.objs[o]?.map (·.dir)).getD ""
  have hdir : ∀ o, w.used o = true → ∃ (h : Nat) (hd : Handle), w.handles[h]? = some hd ∧ hd.obj = o ∧ hd.st = .live ∧ dirOf o = hd.dir := by
    intro o ho
    obtain ⟨k, hd, hk, rfl, hl⟩ := used_iff.mp ho
    obtain ⟨ob, hob, hd'⟩ := R.hobj hk
    exact ⟨k, hd, hk, rfl, hl, by simp [dirOf, hob, hd']⟩
  rw [← List.length_map (f := dirOf)]
  refine (List.Nodup.subperm ?_ ?_).length_le
  · refine (List.nodup_map_iff_inj_on (List.Nodup.filter _ List.nodup_range)).mpr ?_
    intro a ha b hb hab
    obtain ⟨k1, d1, a1, a2, a3, a4⟩ := hdir a (List.mem_filter.mp ha).2
    obtain ⟨k2, d2, b1, b2, b3, b4⟩ := hdir b (List.mem_filter.mp hb).2
    have l1 := R.listed a1 a3
    have l2 := R.listed b1 b3
    rw [a4, b4] at hab
    rw [hab, l2] at l1
    injection l1 with l1
    rw [← a2, ← b2, l1]
  · intro d hd
    obtain ⟨o, ho, rfl⟩ := List.mem_map.mp hd
    obtain ⟨k1, d1, a1, a2, a3, a4⟩ := hdir o (List.mem_filter.mp ho).2
    rw [a4]
    unfold World.dirsInUse
    rw [List.mem_dedup]
    exact List.mem_map.mpr ⟨d1, List.mem_filter.mpr ⟨List.mem_of_getElem? a1, by simp [a3]⟩, rfl⟩

theorem running_le {S : Sys ι} {w : World ι} (R : Reg S w) : w.running ≤ w.dirsInUse.length + w.closing := by
  have h := used_le R
  have h1 : w.running ≤ (List.range w.objs.length).countP w.used + w.closing := by
    unfold World.running World.closing
    rw [countP_range]
    generalize List.range w.objs.length = l
    induction l with
    | nil => simp
    | cons a l ih =>
      simp only [List.countP_cons]
      cases hu : w.used a <;> cases hr : (w.objs[a]?.map (·.inst.running)).getD false <;> simp <;> omega
  omega

/-- **C99**, the bound.  However many stores have been opened and closed before, however many handles there are: the process holds no more
descriptors, no more mappings and no more background threads than there are different directory strings in use, plus the stores that
are just being closed. -/
theorem C99_bound {S : Sys ι} {names : Nat → Option Nat} {inodes : List Bytes} (hg : GoodNames names inodes)
    {es : List (WEv ι)} {w : World ι} {rs : List WRes} (h : World.run S (start names inodes) es = some (w, rs)) (r : Rsc) :
    taken r (World.trace S (start names inodes) es) ≤
      given r (World.trace S (start names inodes) es) + w.dirsInUse.length + w.closing := by
  have a := C99_balance h r
  have b := running_le (reg_reachable hg h)
  omega

/-- A store whose drop has returned is not being closed any more: when every handle is in use or gone, and the thread of every store
without one has ended (the last `drop` waits for that, src/core/io_looper.rs:98-101), the bound is the number of strings. -/
theorem C99_at_rest {S : Sys ι} {names : Nat → Option Nat} {inodes : List Bytes} (hg : GoodNames names inodes)
    {es : List (WEv ι)} {w : World ι} {rs : List WRes} (h : World.run S (start names inodes) es = some (w, rs))
    (hh : ∀ hd ∈ w.handles, hd.st ≠ .unlisted)
    (hj : ∀ (o : Nat) (ob : Obj ι), w.objs[o]? = some ob → w.strong o = 0 → ob.inst.lp.io = .exited ∨ ob.inst.lp.io = .dead) (r : Rsc) :
    taken r (World.trace S (start names inodes) es) ≤ given r (World.trace S (start names inodes) es) + w.dirsInUse.length := by
  have a := C99_bound hg h r
  have : w.closing = 0 := by
    unfold World.closing
    rw [List.countP_eq_zero]
    intro o ho
    simp only [List.mem_range] at ho
    obtain ⟨ob, hob⟩ : ∃ ob, w.objs[o]? = some ob := ⟨_, List.getElem?_eq_getElem ho⟩
    by_cases hs : w.strong o = 0
    · rcases hj o ob hob hs with hx | hx <;> simp [hob, Inst.running, hx]
    · have : 0 < w.strong o := by omega
      unfold World.strong at this
      rw [List.countP_pos_iff] at this
      obtain ⟨hd, hm, hc⟩ := this
      simp only [Bool.and_eq_true, beq_iff_eq, bne_iff_ne, ne_eq] at hc
      have hl : hd.st = .live := by
        have := hh hd hm
        cases hst : hd.st <;> simp_all
      obtain ⟨k, hk⟩ := List.getElem?_of_mem hm
      have := used_iff.mpr ⟨k, hd, hk, hc.1, hl⟩
      simp [this]
  omega

/-- **C99**, the end.  Once every handle has been dropped and the background threads have done what they can, everything is back. -/
theorem C99_all_back {S : Sys ι} {names : Nat → Option Nat} {inodes : List Bytes} (hg : GoodNames names inodes)
    {es : List (WEv ι)} {w : World ι} {rs : List WRes} (h : World.run S (start names inodes) es = some (w, rs))
    (hh : ∀ hd ∈ w.handles, hd.st = .gone) (hq : ∀ o ord, w.step S (.io o ord) = none) (r : Rsc) :
    taken r (World.trace S (start names inodes) es) = given r (World.trace S (start names inodes) es) := by
  rw [C99_balance h r]
  suffices w.running = 0 by omega
  unfold World.running
  rw [List.countP_eq_zero]
  intro ob hm hr
  obtain ⟨o, hob⟩ := List.getElem?_of_mem hm
  have hs : w.strong o = 0 := by
    unfold World.strong
    rw [List.countP_eq_zero]
    intro hd hd'
    simp [hh hd hd']
  simp only [Inst.running, Bool.and_eq_true, bne_iff_ne, ne_eq] at hr
  have := (C41_no_deadlock hg h).2.2.2.2.2 o ob hob hs hr.1 hr.2 id
  rw [hq o id] at this
  cases this

/-! ### The hypotheses can be met -/

/-- Two directories; the file of `"c"` is damaged (three bytes), opening it panics. -/
def resWorld : World Unit := start (fun f => if f = 2 then some 0 else none) [[1, 2, 3]]

/-- Two handles on `"a"` and one on `"b"`; a file that grows by a page; a clear; all of it closed again. -/
def resEvs : List (WEv Unit) :=
  [.create "a" (), .lookup "a", .create "b" ()] ++ wput 0 0 "a" "k" 1 ++ wput 1 0 "a" "l" 2 ++ wput 0 0 "a" "m" 3 ++ wput 1 0 "a" "n" 4 ++
  [.call 2 "b" .clear, .cont 1 (), .cont 1 (), .cont 1 ()] ++ List.replicate 5 (.io 1 id) ++ [.cont 1 (), .cont 1 ()] ++
  List.replicate 12 (.io 0 id)

def resEnd : List (WEv Unit) := [.drop1 0, .drop2 0, .drop1 1, .drop2 1, .drop1 2, .drop2 2, .io 1 id] ++ List.replicate 5 (.io 0 id)

/-- Which file a directory string names. -/
def resSys : Sys Unit := { codecs := plain, page := 32, fileOf := fun d => if d = "a" then 0 else if d = "b" then 1 else 2 }

/-- In use: two strings, so two descriptors, two mappings, two threads, although three handles were made and a file was cleared. -/
example : ((resWorld.run resSys resEvs).map fun p => (p.1.dirsInUse, p.1.closing, p.1.running, p.1.handles.length,
      p.1.objs.map fun ob => ob.inst.lp.cb.ws.file.length)) = some (["a", "b"], 0, 2, 3, [64, 32]) ∧
    ([Rsc.file, .map, .thread].map fun r => (taken r (resWorld.trace resSys resEvs), given r (resWorld.trace resSys resEvs))) =
      [(3, 1), (4, 2), (3, 1)] := by
  decide +kernel

/-- Closed: everything is back, and no background thread can do anything more. -/
example : ((resWorld.run resSys (resEvs ++ resEnd)).map fun p => (p.1.handles.map (·.st), p.1.running,
      (p.1.step resSys (.io 0 id)).isNone && (p.1.step resSys (.io 1 id)).isNone)) = some ([.gone, .gone, .gone], 0, true) ∧
    ([Rsc.file, .map, .thread].map fun r => (taken r (resWorld.trace resSys (resEvs ++ resEnd)), given r (resWorld.trace resSys (resEvs ++ resEnd)))) =
      [(3, 3), (4, 4), (3, 3)] := by
  decide +kernel

/-- An open that panics gives back the descriptor and the mapping it took. -/
example : ((resWorld.run resSys [.create "c" ()]).map (·.2)) = some [.panic] ∧
    resWorld.trace resSys [.create "c" ()] = [.take .file, .take .map, .give .map, .give .file] := by
  decide +kernel

/-- A file system in which different names lead to different files. -/
example : GoodNames (fun f => if f = 2 then some 0 else none) [[1, 2, 3]] :=
  ⟨by intro f n h; split at h <;> simp_all, by
    intro f g n hf hg; split at hf <;> split at hg <;> simp_all⟩

end Mmkv
