import Verif.Model.Fork
import Verif.Props.Process
import Verif.Props.Unwind
/-!
# C98: handles inherited by a forked child
-/

namespace Mmkv
open Spec World
variable {ι : Type}

/-- A store without its background thread, which was alive: what calls in the child can bring it to. -/
structure Inst.Stuck (s : Inst ι) : Prop where
  notJoined : s.joined = false
  alive : s.lp.io ≠ .exited ∧ s.lp.io ≠ .dead
  noReopen : s.phase ≠ .clrOpen
  clearing : s.valid = false → s.phase = .clrPush ∨ s.phase = .clrSend ∨ s.phase = .clrQuit ∨ s.phase = .clrJoin
  sender : s.lp.sender = false → s.phase = .clrJoin ∨ s.phase = .closed

theorem Inst.Serving.stuck {s : Inst ι} (h : s.Serving) : s.Stuck :=
  ⟨h.notJoined, h.alive, by simp [h.idle], by simp [h.valid], by simp [h.sender]⟩

/-- A step that is not one of the background thread leaves the file, its name and the thread as they are. -/
theorem Inst.stuck_step {codecs : ι → Codec} {s s' : Inst ι} {e : Ev ι} {r : Option (Out Unit)} (h : s.Stuck)
    (hio : ∀ o, e ≠ .io o) (hst : Inst.step codecs s e = some (s', r)) : s'.Stuck ∧ s'.lp.cb = s.lp.cb ∧ s'.lp.io = s.lp.io := by
  obtain ⟨h1, h2, h3, h4, h5⟩ := h
  cases e with
  | io o => exact absurd rfl (hio o)
  | put k t b =>
    simp only [Inst.step] at hst
    split at hst
    · cases hst
    · rename_i hg
      have hid : s.phase = .idle := Decidable.byContradiction fun hne => hg (.inl hne)
      split at hst
      · injection hst with hst; injection hst with a b; subst a; exact ⟨⟨h1, h2, h3, h4, h5⟩, rfl, rfl⟩
      · split at hst
        · injection hst with hst; injection hst with a b; subst a; exact ⟨⟨h1, h2, h3, h4, h5⟩, rfl, rfl⟩
        · injection hst with hst; injection hst with a b; subst a
          exact ⟨⟨h1, h2, by simp, fun hv => by have := h4 hv; simp [hid] at this, fun hs => by have := h5 hs; simp [hid] at this⟩, rfl, rfl⟩
  | delete k =>
    simp only [Inst.step] at hst
    split at hst
    · cases hst
    · rename_i hg
      have hid : s.phase = .idle := Decidable.byContradiction fun hne => hg hne
      split at hst
      · injection hst with hst; injection hst with a b; subst a; exact ⟨⟨h1, h2, h3, h4, h5⟩, rfl, rfl⟩
      · split at hst
        · injection hst with hst; injection hst with a b; subst a; exact ⟨⟨h1, h2, h3, h4, h5⟩, rfl, rfl⟩
        · split at hst
          · injection hst with hst; injection hst with a b; subst a; exact ⟨⟨h1, h2, h3, h4, h5⟩, rfl, rfl⟩
          · injection hst with hst; injection hst with a b; subst a
            exact ⟨⟨h1, h2, by simp, fun hv => by have := h4 hv; simp [hid] at this, fun hs => by have := h5 hs; simp [hid] at this⟩, rfl, rfl⟩
  | clear =>
    simp only [Inst.step] at hst
    split at hst
    · cases hst
    · rename_i hg
      have hid : s.phase = .idle := Decidable.byContradiction fun hne => hg hne
      split at hst
      · injection hst with hst; injection hst with a b; subst a; exact ⟨⟨h1, h2, h3, h4, h5⟩, rfl, rfl⟩
      · split at hst
        · rename_i hv; have := h4 hv; simp [hid] at this
        · injection hst with hst; injection hst with a b; subst a
          exact ⟨⟨h1, h2, by simp, by simp, fun hs => by have := h5 hs; simp [hid] at this⟩, rfl, rfl⟩
  | drop =>
    simp only [Inst.step] at hst
    split at hst
    · cases hst
    · injection hst with hst; injection hst with a b; subst a
      exact ⟨⟨h1, h2, by simp, fun hv => by have := h4 hv; simp_all, fun _ => .inr rfl⟩, rfl, rfl⟩
  | api i =>
    have hs : s.phase ≠ .clrJoin → s.phase ≠ .closed → s.lp.sender = true := by
      intro a b
      cases hse : s.lp.sender with
      | true => rfl
      | false => rcases h5 hse with c | c
                 · exact absurd c a
                 · exact absurd c b
    have hal : ¬ (s.lp.io = .dead ∨ s.lp.io = .exited) := by
      rintro (a | a)
      · exact h2.2 a
      · exact h2.1 a
    cases hp : s.phase with
    | idle => simp [Inst.step, hp] at hst
    | closed => simp [Inst.step, hp] at hst
    | push j =>
      have hse := hs (by simp [hp]) (by simp [hp])
      simp only [Inst.step, hp] at hst
      injection hst with hst; injection hst with a b; subst a
      refine ⟨⟨h1, ?_, by simp, fun hv => by have := h4 hv; simp [hp] at this, ?_⟩, ?_, ?_⟩ <;> simp [Looper.push, hse, h2]
    | send =>
      have hse := hs (by simp [hp]) (by simp [hp])
      simp only [Inst.step, hp, Looper.send, hse, if_true, if_neg hal] at hst
      injection hst with hst; injection hst with a b; subst a
      exact ⟨⟨h1, h2, by simp, fun hv => by have := h4 hv; simp [hp] at this, by simp [hse]⟩, rfl, rfl⟩
    | clrPush =>
      have hse := hs (by simp [hp]) (by simp [hp])
      simp only [Inst.step, hp] at hst
      injection hst with hst; injection hst with a b; subst a
      refine ⟨⟨h1, ?_, by simp, by simp, ?_⟩, ?_, ?_⟩ <;> simp [Looper.push, hse, h2]
    | clrSend =>
      have hse := hs (by simp [hp]) (by simp [hp])
      simp only [Inst.step, hp, Looper.send, hse, if_true, if_neg hal] at hst
      injection hst with hst; injection hst with a b; subst a
      exact ⟨⟨h1, h2, by simp, by simp, by simp [hse]⟩, rfl, rfl⟩
    | clrQuit =>
      have hse := hs (by simp [hp]) (by simp [hp])
      simp only [Inst.step, hp, Looper.quitSend, hse, if_true, if_neg hal] at hst
      injection hst with hst; injection hst with a b; subst a
      exact ⟨⟨h1, h2, by simp, by simp, by simp⟩, rfl, rfl⟩
    | clrJoin => simp [Inst.step, hp, h2.1, h2.2] at hst
    | clrOpen => exact absurd hp h3

theorem Inst.closed_step {codecs : ι → Codec} {s s' : Inst ι} {e : Ev ι} {r : Option (Out Unit)} (h : s.phase = .closed)
    (hio : ∀ o, e ≠ .io o) (hst : Inst.step codecs s e = some (s', r)) : False := by
  cases e with
  | io o => exact absurd rfl (hio o)
  | _ => simp [Inst.step, h] at hst

theorem Inst.Stuck.withFile {s : Inst ι} (h : s.Stuck) (f : Bytes) : (s.withFile f).Stuck := ⟨h.1, h.2, h.3, h.4, h.5⟩

/-- A clear under way. -/
def Phase.inClear (p : Phase) : Prop := p = .clrPush ∨ p = .clrSend ∨ p = .clrQuit ∨ p = .clrJoin

/-- Without its background thread a clear does not end. -/
theorem Inst.stuckClear_step {codecs : ι → Codec} {s s' : Inst ι} {e : Ev ι} {r : Option (Out Unit)} (h : s.Stuck)
    (hc : s.phase.inClear) (hio : ∀ o, e ≠ .io o) (hst : Inst.step codecs s e = some (s', r)) : s'.phase.inClear ∧ r = none := by
  have hni : s.phase ≠ .idle := by rcases hc with c | c | c | c <;> simp [c]
  have hal : ¬ (s.lp.io = .dead ∨ s.lp.io = .exited) := by
    rintro (a | a)
    · exact h.alive.2 a
    · exact h.alive.1 a
  have hse : s.phase ≠ .clrJoin → s.lp.sender = true := by
    intro a
    cases hse : s.lp.sender with
    | true => rfl
    | false => rcases h.sender hse with c | c
               · exact absurd c a
               · rcases hc with d | d | d | d <;> simp [c] at d
  cases e with
  | io o => exact absurd rfl (hio o)
  | api i =>
    rcases hc with c | c | c | c
    · simp only [Inst.step, c] at hst
      injection hst with hst; injection hst with a b; subst a; subst b; simp [Phase.inClear]
    · simp only [Inst.step, c, Looper.send, hse (by simp [c]), if_true, if_neg hal] at hst
      injection hst with hst; injection hst with a b; subst a; subst b; simp [Phase.inClear]
    · simp only [Inst.step, c, Looper.quitSend, hse (by simp [c]), if_true, if_neg hal] at hst
      injection hst with hst; injection hst with a b; subst a; subst b; simp [Phase.inClear]
    · simp [Inst.step, c, h.alive.1, h.alive.2] at hst
  | _ => simp [Inst.step, hni] at hst

/-- What is known of a store in the child. -/
def Inst.Orphan (s : Inst ι) : Prop := s.phase = .closed ∨ s.Stuck

theorem acts_not_io {S : Sys ι} {w : World ι} {e : WEv ι} {o : Nat} {ev : Ev ι} {n : Nat} (ha : Acts S w e o ev) (hc : e.InChild n)
    (ho : o < n) : ∀ x, ev ≠ .io x := by
  cases ha with
  | @call k d m x hx hl hd => cases m <;> simp [evOf]
  | cont _ _ => simp
  | io => simp only [WEv.InChild] at hc; omega
  | drop _ _ _ => simp

/-- One inherited store across one event of the child. -/
theorem stuck_world {S : Sys ι} {w w' : World ι} {e : WEv ι} {r : WRes} {n o : Nat} {ob : Obj ι} (ho : o < n) (hc : e.InChild n)
    (hob : w.objs[o]? = some ob) (hs : ob.inst.Stuck) (h : w.step S e = some (w', r)) :
    ∃ ob', w'.objs[o]? = some ob' ∧ ob'.inst.Stuck ∧ ob'.dir = ob.dir ∧ ob'.inode = ob.inode ∧
      (ob.inst.phase.inClear → ob'.inst.phase.inClear) := by
  cases step_moves h with
  | quiet h1 _ _ _ _ => exact ⟨ob, by rw [h1]; exact hob, hs, rfl, rfl, id⟩
  | touched _ _ h1 _ _ => exact ⟨ob, by rw [h1]; exact hob, hs, rfl, rfl, id⟩
  | opened _ _ h1 _ _ => exact ⟨ob, by rw [h1, List.getElem?_append_left (getElem?_lt hob)]; exact hob, hs, rfl, rfl, id⟩
  | @reopened o' i ob1 s' r' hob1 hp hst h1 _ _ =>
    have hne : o' ≠ o := by
      rintro rfl
      rw [hob] at hob1; injection hob1 with hob1; subst hob1
      exact hs.noReopen hp
    exact ⟨ob, by rw [h1, List.getElem?_set_ne hne]; exact hob, hs, rfl, rfl, id⟩
  | @stepped _ o' ev ob1 s' c r' ha hob1 hst h1 _ _ =>
    by_cases hne : o' = o
    · subst hne
      rw [hob] at hob1; injection hob1 with hob1; subst hob1
      have hio := acts_not_io ha hc ho
      refine ⟨{ ob with inst := s', caller := c }, by rw [h1, List.getElem?_set_self (getElem?_lt hob)], (Inst.stuck_step (hs.withFile _) hio hst).1, rfl, rfl, ?_⟩
      intro hcl
      exact (Inst.stuckClear_step (hs.withFile (w.content ob.inode)) hcl hio hst).1
    · exact ⟨ob, by rw [h1, List.getElem?_set_ne hne]; exact hob, hs, rfl, rfl, id⟩

theorem stuck_world_run {S : Sys ι} {n o : Nat} (ho : o < n) : ∀ (es : List (WEv ι)) {w w' : World ι} {rs : List WRes} {ob : Obj ι},
    (∀ e ∈ es, e.InChild n) → w.objs[o]? = some ob → ob.inst.Stuck → w.run S es = some (w', rs) →
    ∃ ob', w'.objs[o]? = some ob' ∧ ob'.inst.Stuck ∧ (ob.inst.phase.inClear → ob'.inst.phase.inClear)
  | [], w, w', rs, ob, _, hob, hs, h => by
    simp only [World.run, Option.some.injEq, Prod.mk.injEq] at h
    exact ⟨ob, by rw [← h.1]; exact hob, hs, id⟩
  | e :: es, w, w', rs, ob, hc, hob, hs, h => by
    simp only [World.run] at h
    split at h
    · cases h
    · rename_i w1 r1 hst
      split at h
      · cases h
      · rename_i w2 rs2 hrun
        simp only [Option.some.injEq, Prod.mk.injEq] at h
        obtain ⟨rfl, _⟩ := h
        obtain ⟨ob1, h1, h2, _, _, h3⟩ := stuck_world ho (hc e (by simp)) hob hs hst
        obtain ⟨ob2, h4, h5, h6⟩ := stuck_world_run ho es (fun e he => hc e (by simp [he])) h1 h2 hrun
        exact ⟨ob2, h4, h5, fun hcl => h6 (h3 hcl)⟩

/-- Every store on data file `g` is one the child inherited. -/
def Inherited (S : Sys ι) (n g : Nat) (w : World ι) : Prop :=
  ∀ (o : Nat) (ob : Obj ι), w.objs[o]? = some ob → S.fileOf ob.dir = g → o < n ∧ ob.inst.Orphan

theorem inherited_step {S : Sys ι} {w w' : World ι} {e : WEv ι} {r : WRes} {n g : Nat} (R : Reg S w) (hI : Inherited S n g w)
    (hc : e.InChild n) (hno : ¬ e.OpensAnew S g) (h : w.step S e = some (w', r)) :
    Inherited S n g w' ∧ w'.fileAt g = w.fileAt g := by
  by_cases hf : e.file? S w = some g
  · cases step_moves h with
    | quiet h1 h2 h3 _ _ =>
      refine ⟨by intro o ob; rw [h1]; exact hI o ob, ?_⟩
      unfold fileAt; rw [h2]; unfold content; rw [h3]
    | @touched dir i _ _ h1 _ _ => exact absurd (by simpa [WEv.file?, WEv.OpensAnew] using hf) hno
    | @opened dir i s _ _ h1 _ _ => exact absurd (by simpa [WEv.file?, WEv.OpensAnew] using hf) hno
    | @reopened o' i ob1 s' r' hob1 hp hst h1 _ _ =>
      have hg : S.fileOf ob1.dir = g := by simpa [WEv.file?, hob1] using hf
      obtain ⟨_, ho | ho⟩ := hI _ _ hob1 hg
      · rw [hp] at ho; cases ho
      · exact absurd hp ho.noReopen
    | @stepped _ o' ev ob1 s' c r' ha hob1 hst h1 h2 h3 =>
      have hg : S.fileOf ob1.dir = g := by
        cases ha with
        | @call k d m x hx hxl hxd =>
          obtain ⟨b, g1, g2⟩ := R.hobj hx
          rw [hob1] at g1; injection g1 with g1; subst g1
          simp only [WEv.file?, Option.some.injEq] at hf
          rw [g2, hxd, hf]
        | cont _ _ => simpa [WEv.file?, hob1] using hf
        | io => simpa [WEv.file?, hob1] using hf
        | @drop k x hx hxl h0 =>
          obtain ⟨b, g1, g2⟩ := R.hobj hx
          rw [hob1] at g1; injection g1 with g1; subst g1
          simpa [WEv.file?, hx, g2] using hf
      obtain ⟨hn, ho⟩ := hI _ _ hob1 hg
      have hio := acts_not_io ha hc hn
      rcases ho with ho | ho
      · exact (Inst.closed_step (s := ob1.inst.withFile (w.content ob1.inode)) ho hio hst).elim
      · obtain ⟨a1, a2, a3⟩ := Inst.stuck_step (ho.withFile _) hio hst
        refine ⟨?_, ?_⟩
        · intro o ob hob hd
          rw [h1] at hob
          rcases getElem?_set_cases hob with ⟨rfl, rfl⟩ | ⟨_, hx⟩
          · exact ⟨hn, .inr a1⟩
          · exact hI o ob hx hd
        · have hnm : w'.names = w.names := by
            rw [h2, if_neg]
            rintro ⟨b1, b2⟩
            rw [a2] at b2
            simp only [Inst.withFile] at b2
            rw [b1] at b2; cases b2
          have hct : ∀ m, w'.content m = w.content m := by
            intro m
            unfold content
            rw [h3, a2]
            by_cases hm : ob1.inode = m
            · subst hm
              rw [List.getElem?_set]
              simp only [Inst.withFile, content, if_true]
              split
              · rfl
              · rename_i hl; rw [List.getElem?_eq_none (by omega)]
            · rw [List.getElem?_set_ne hm]
          unfold fileAt
          rw [hnm]
          cases w.names g with
          | none => rfl
          | some m => simp [hct m]
  · have := same_step R h hf
    exact ⟨fun o ob hob hd => hI o ob (this.back hob hd) hd, this.file⟩

theorem inherited_run {S : Sys ι} {n g : Nat} : ∀ (es : List (WEv ι)) {w w' : World ι} {rs : List WRes}, Reg S w → Inherited S n g w →
    (∀ e ∈ es, e.InChild n ∧ ¬ e.OpensAnew S g) → w.run S es = some (w', rs) → Inherited S n g w' ∧ w'.fileAt g = w.fileAt g
  | [], w, w', rs, _, hI, _, h => by
    simp only [World.run, Option.some.injEq, Prod.mk.injEq] at h
    rw [← h.1]; exact ⟨hI, rfl⟩
  | e :: es, w, w', rs, R, hI, hc, h => by
    simp only [World.run] at h
    split at h
    · cases h
    · rename_i w1 r1 hst
      split at h
      · cases h
      · rename_i w2 rs2 hrun
        simp only [Option.some.injEq, Prod.mk.injEq] at h
        obtain ⟨rfl, _⟩ := h
        obtain ⟨h1, h2⟩ := inherited_step R hI (hc e (by simp)).1 (hc e (by simp)).2 hst
        obtain ⟨h3, h4⟩ := inherited_run es (R.step hst) h1 (fun e he => hc e (by simp [he])) hrun
        exact ⟨h3, h4.trans h2⟩

/-! ### C98 -/

/-- The three steps of a put that needs nobody else. -/
theorem put_serving {S : Sys ι} {w : World ι} (R : Reg S w) {h : Nat} {hd : Handle} (hh : w.handles[h]? = some hd) (hl : hd.st = .live)
    {ob : Obj ι} (hob : w.objs[hd.obj]? = some ob) (hs : ob.inst.Serving) {k : String} {e : Entry} (htk : tokenOk e.token = true) (i : ι) :
    ∃ w1 s1, w.run S [.call h hd.dir (.put k e), .cont hd.obj i, .cont hd.obj i] = some (w1, [.quiet, .quiet, .ret (.ok ())]) ∧
      w1.store? h = some s1 ∧ s1.phase = .idle ∧ s1.valid = true ∧ s1.poisoned = false ∧
      s1.kv = ob.inst.kv.insert k (Buffer.ofRaw k e.token e.bytes) := by
  have hlt := getElem?_lt hob
  have hb : w.busy h = false := by
    cases hb : w.busy h with
    | false => rfl
    | true =>
      obtain ⟨o, ob', ho, hc⟩ := busy_iff.1 hb
      obtain ⟨hd', g1, g2, _⟩ := R.caller ho hc
      rw [hh] at g1; injection g1 with g1; subst g1
      rw [← g2, hob] at ho; injection ho with ho; subst ho
      exact absurd hs.idle ((R.under hob).1 (by simp [hc])).1
  have hal : ¬ (ob.inst.lp.io = .dead ∨ ob.inst.lp.io = .exited) := by
    rintro (a | a)
    · exact hs.alive.2 a
    · exact hs.alive.1 a
  have hg : ¬ (hd.st ≠ .live ∨ hd.dir ≠ hd.dir ∨ w.busy h = true) := by simp [hl, hb]
  simp only [World.run, World.step, hh, if_neg hg, World.stepObj, hob, evOf, Inst.step, Inst.withFile, hs.idle, htk, hs.lock, hs.valid,
    Option.map_some, List.getElem?_set_self hlt, Looper.push, hs.sender, Looper.send, if_neg hal, retOf]
  simp [hs.sender, hal, World.store?, hh, hl, hlt, hs.valid, hs.lock, retOf]

/-- **C98 is false.** A process forks while a directory is open; nothing is under way on its data file.  In the child a put through the
inherited handle returns `Ok` and a get shows it.  But whatever the child then does, for ever, with any handles and directories and
closing the handle included, its data file stays as it was: the put is never saved, unless the child opens the directory afresh. -/
theorem C98_refuted {S : Sys ι} {names : Nat → Option Nat} {inodes : List Bytes} (hg : GoodNames names inodes) {es0 : List (WEv ι)}
    {w : World ι} {rs0 : List WRes} (hrun : World.run S (start names inodes) es0 = some (w, rs0)) {h : Nat} {hd : Handle}
    (hh : w.handles[h]? = some hd) (hl : hd.st = .live)
    (hq : ∀ (o : Nat) (ob : Obj ι), w.objs[o]? = some ob → S.fileOf ob.dir = S.fileOf hd.dir → ob.inst.phase = .closed ∨ ob.inst.Serving)
    {k : String} {e : Entry} (htk : tokenOk e.token = true) (i : ι) :
    ∃ w1 s1, w.run S [.call h hd.dir (.put k e), .cont hd.obj i, .cont hd.obj i] = some (w1, [.quiet, .quiet, .ret (.ok ())]) ∧
      w1.store? h = some s1 ∧ s1.phase = .idle ∧
      (∀ {α : Type} (fromB : Bytes → Out α), s1.getAs k e.token fromB = fromB e.bytes) ∧
      ∀ (es : List (WEv ι)) (w' : World ι) (rs : List WRes), (∀ x ∈ es, x.InChild w.objs.length ∧ ¬ x.OpensAnew S (S.fileOf hd.dir)) →
        w1.run S es = some (w', rs) → w'.fileAt (S.fileOf hd.dir) = w.fileAt (S.fileOf hd.dir) := by
  have R := reg_reachable hg hrun
  obtain ⟨ob, hob, hdir⟩ := R.hobj hh
  have hsv : ob.inst.Serving := by
    rcases hq _ _ hob (by rw [hdir]) with hc | hc
    · have h0 := (R.closed hob).1 hc
      have := strong_pos hh (by simp [hl])
      omega
    · exact hc
  obtain ⟨w1, s1, h1, h2, h3, h4, h5, h6⟩ := put_serving R hh hl hob hsv htk i (k := k)
  have hI : Inherited S w.objs.length (S.fileOf hd.dir) w := fun o ob' ho hd' =>
    ⟨getElem?_lt ho, (hq o ob' ho hd').imp id Inst.Serving.stuck⟩
  obtain ⟨I1, f1⟩ := inherited_run _ R hI (by
    intro x hx
    simp only [List.mem_cons, List.not_mem_nil, or_false] at hx
    rcases hx with rfl | rfl | rfl <;> simp [WEv.InChild, WEv.OpensAnew]) h1
  refine ⟨w1, s1, h1, h2, h3, ?_, ?_⟩
  · intro α fromB
    have hnd : (Buffer.ofRaw k e.token e.bytes).isDeleting = false := by
      have := tokenOk_ne_deleted htk
      simp [Buffer.isDeleting, Buffer.ofRaw, this]
    have hkv : s1.kv.get k = some (Buffer.ofRaw k e.token e.bytes) := by rw [h6]; rw [KvMap.get_insert, if_pos rfl]
    simp only [Inst.getAs, h4, h5, hkv, Buffer.parseAs, Buffer.checkType, hnd]
    simp [Buffer.ofRaw]
  · intro es w' rs hes hr
    exact (inherited_run es (R.run _ h1) I1 hes hr).2.trans f1

/-- **C98**, what the parent may rely on: whatever the child does through inherited handles (puts, deletes, `clear_data`, drops), it
changes nothing in a data file it does not open afresh. -/
theorem C98_parent_partial {S : Sys ι} {names : Nat → Option Nat} {inodes : List Bytes} (hg : GoodNames names inodes) {es0 : List (WEv ι)}
    {w : World ι} {rs0 : List WRes} (hrun : World.run S (start names inodes) es0 = some (w, rs0)) {g : Nat}
    (hq : ∀ (o : Nat) (ob : Obj ι), w.objs[o]? = some ob → S.fileOf ob.dir = g → ob.inst.phase = .closed ∨ ob.inst.Serving)
    {es : List (WEv ι)} {w' : World ι} {rs : List WRes} (hes : ∀ x ∈ es, x.InChild w.objs.length ∧ ¬ x.OpensAnew S g)
    (hr : w.run S es = some (w', rs)) : w'.fileAt g = w.fileAt g :=
  (inherited_run es (reg_reachable hg hrun) (fun o ob' ho hd' => ⟨getElem?_lt ho, (hq o ob' ho hd').imp id Inst.Serving.stuck⟩) hes hr).2

/-- **C98 is false** also of closing: in the child, dropping the last handle of an inherited store never returns. -/
theorem C98_refuted_drop {S : Sys ι} {w : World ι} {h : Nat} {hd : Handle} (hh : w.handles[h]? = some hd) (hst : hd.st = .unlisted)
    (hlast : ∀ h2 hd2, w.handles[h2]? = some hd2 → h2 ≠ h → hd2.obj = hd.obj → hd2.st = .gone) {ob : Obj ι} (hob : w.objs[hd.obj]? = some ob) (hs : ob.inst.Serving)
    {es : List (WEv ι)} (hes : ∀ x ∈ es, x.InChild w.objs.length) {w' : World ι} {b : Bool} : ¬ TaskRun S w (.release h) es w' b := by
  intro ht
  cases ht with
  | @shared _ _ hd' r hh' hs' hmore =>
    rw [hh] at hh'; injection hh' with hh'; subst hh'
    have hw : w'.handles = w.handles.set h { hd with st := .gone } := by
      simp only [World.step, hh, hst] at hs'
      split at hs'
      · cases hs'
      · split at hs'
        · rw [Option.map_eq_some_iff] at hs'
          obtain ⟨⟨w1, r1⟩, hso, hret⟩ := hs'
          injection hret with h1 h2; subst h1
          obtain ⟨ob, s', _, _, rfl⟩ := stepObj_eq hso
          rfl
        · injection hs' with hs'; injection hs' with h1 h2; subst h1; rfl
    apply hmore
    unfold World.strong
    rw [List.countP_eq_zero, hw]
    intro x hx
    obtain ⟨j, hj⟩ := List.getElem?_of_mem hx
    rcases getElem?_set_cases hj with ⟨rfl, rfl⟩ | ⟨hne, hj⟩
    · simp
    · have := hlast j x hj hne
      simp only [Bool.and_eq_true, beq_iff_eq, bne_iff_ne, ne_eq, not_and, Decidable.not_not]
      exact this
  | last hh' hs' hl hwait hob' hj =>
    rename_i w1 hd' r es rs ob' b'
    rw [hh] at hh'; injection hh' with hh'; subst hh'
    obtain ⟨ob1, a1, a2, _⟩ := stuck_world (getElem?_lt hob) (hes _ (by simp)) hob hs.stuck hs'
    obtain ⟨ob2, b1, b2, _⟩ := stuck_world_run (getElem?_lt hob) es (fun x hx => hes x (by simp [hx])) a1 a2 hwait
    rw [b1] at hob'; injection hob' with hob'; subst hob'
    unfold Inst.joinResult at hj
    rw [b2.notJoined] at hj
    have := b2.alive
    cases hio : ob2.inst.lp.io <;> simp_all

/-- **C98 is false** also of `clear_data`: in the child, `clear_data` through an inherited handle begins and never returns: whatever the
child does afterwards, no step of that call returns anything, and no call on that store, through any handle, can begin. -/
theorem C98_refuted_clear {S : Sys ι} {names : Nat → Option Nat} {inodes : List Bytes} (hg : GoodNames names inodes) {es0 : List (WEv ι)}
    {w : World ι} {rs0 : List WRes} (hrun : World.run S (start names inodes) es0 = some (w, rs0)) {h : Nat} {hd : Handle}
    (hh : w.handles[h]? = some hd) (hl : hd.st = .live) {ob : Obj ι} (hob : w.objs[hd.obj]? = some ob) (hs : ob.inst.Serving) :
    ∃ w1, w.step S (.call h hd.dir .clear) = some (w1, .quiet) ∧
      ∀ (es : List (WEv ι)) (w' : World ι) (rs : List WRes), (∀ x ∈ es, x.InChild w.objs.length) → w1.run S es = some (w', rs) →
        (∀ i w'' r, w'.step S (.cont hd.obj i) = some (w'', r) → r = .quiet) ∧
        (∀ h2 hd2 m, w'.handles[h2]? = some hd2 → hd2.obj = hd.obj → w'.step S (.call h2 hd2.dir m) = none) ∧
        ∀ h2 s, w'.store? h2 = some s → (w'.handles[h2]?).map (·.obj) = some hd.obj → s.phase ≠ .idle := by
  have R := reg_reachable hg hrun
  have hlt := getElem?_lt hob
  have hb : w.busy h = false := by
    cases hb : w.busy h with
    | false => rfl
    | true =>
      obtain ⟨o, ob', ho, hc⟩ := busy_iff.1 hb
      obtain ⟨hd', g1, g2, _⟩ := R.caller ho hc
      rw [hh] at g1; injection g1 with g1; subst g1
      rw [← g2, hob] at ho; injection ho with ho; subst ho
      exact absurd hs.idle ((R.under hob).1 (by simp [hc])).1
  have hgd : ¬ (hd.st ≠ .live ∨ hd.dir ≠ hd.dir ∨ w.busy h = true) := by simp [hl, hb]
  obtain ⟨w1, hw1, hob1⟩ : ∃ w1, w.step S (.call h hd.dir .clear) = some (w1, .quiet) ∧
      ∃ ob1, w1.objs[hd.obj]? = some ob1 ∧ ob1.inst.phase = .clrPush := by
    simp only [World.step, hh, if_neg hgd, World.stepObj, hob, evOf, Inst.step, Inst.withFile, hs.idle, hs.lock, hs.valid,
      Option.map_some, retOf]
    simp [hlt]
  obtain ⟨ob1, o1, o2⟩ := hob1
  obtain ⟨ob1', p1, p2, _⟩ := stuck_world (n := w.objs.length) hlt (by simp [WEv.InChild]) hob hs.stuck hw1
  rw [o1] at p1; injection p1 with p1; subst p1
  refine ⟨w1, hw1, fun es w' rs hes hr => ?_⟩
  obtain ⟨ob2, q1, q2, q3⟩ := stuck_world_run hlt es hes o1 p2 hr
  have hcl := q3 (.inl o2)
  have hni : ob2.inst.phase ≠ .idle := by rcases hcl with c | c | c | c <;> simp [c]
  refine ⟨?_, ?_, ?_⟩
  · intro i w'' r hst
    simp only [World.step, q1, if_neg q2.noReopen, World.stepObj] at hst
    rw [Option.map_eq_some_iff] at hst
    obtain ⟨⟨w3, r3⟩, hso, hret⟩ := hst
    split at hso
    · cases hso
    · rename_i s' r' hst
      injection hso with hso; injection hso with h1 h2; subst h2
      have hn := (Inst.stuckClear_step (q2.withFile (w'.content ob2.inode)) hcl (by simp) hst).2
      subst hn
      injection hret with _ h4
      exact h4.symm
  · intro h2 hd2 m hh2 ho2
    simp only [World.step, hh2, World.stepObj, ho2, q1]
    split
    · rfl
    · cases m <;> simp [evOf, Inst.step, Inst.withFile, hni]
  · intro h2 s hst hmap
    obtain ⟨hd2, ob3, r1, _, r2, r3⟩ := store_live hst
    rw [r1] at hmap
    simp only [Option.map_some, Option.some.injEq] at hmap
    rw [hmap, q1] at r2; injection r2 with r2; subst r2
    rw [← r3]; exact hni

/-- **C98**, the part that holds: in the child of a process with plain stores every call returns `Ok` and every possible get, through
inherited handles or new ones, returns what a plain map says after the calls made before the fork and in the child; and what the child
does in directories it opened itself is saved once it has closed them. -/
theorem C98_partial {S : Sys Unit} {page K : Nat} (hp : Plain S page) {names : Nat → Option Nat} {inodes : List Bytes}
    (hg : GoodNames names inodes) {S0 : Nat → Store}
    (h0 : ∀ f, FileMap page K (((start names inodes : World Unit).fileAt f).getD []) (S0 f))
    {es0 es : List (WEv Unit)} {w w' : World Unit} {rs0 rs : List WRes} (hrun0 : World.run S (start names inodes) es0 = some (w, rs0))
    (hrun : w.run S es = some (w', rs)) (_hchild : ∀ e ∈ es, e.InChild w.objs.length)
    (hfit : ∀ e ∈ es0 ++ es, e.Fits page) (hcalm : CalmRun S (start names inodes) (es0 ++ es))
    (hroom : page * (K + (es0 ++ es).length) + 8 < 2 ^ 64) :
    (∀ x, .ret x ∈ rs → x = .ok ()) ∧
    (∀ (h : Nat) (hd : Handle) (s : Inst Unit), w'.handles[h]? = some hd → w'.store? h = some s → s.phase = .idle →
        s.Shows ((S0 (S.fileOf hd.dir)).run (callsOf S (S.fileOf hd.dir) (es0 ++ es)))) ∧
    ∀ f, (∀ (o : Nat) (ob : Obj Unit), w'.objs[o]? = some ob → S.fileOf ob.dir = f → ob.inst.closedOk) →
      ∃ s, Inst.openAt plain () page ((w'.fileAt f).getD []) = some s ∧ s.Shows ((S0 f).run (callsOf S f (es0 ++ es))) := by
  have hall : World.run S (start names inodes) (es0 ++ es) = some (w', rs0 ++ rs) := wrun_append _ _ hrun0 hrun
  obtain ⟨a, b⟩ := C01_process hp hg h0 hall hfit hcalm hroom
  exact ⟨fun x hx => a x (by simp [hx]), b, fun f hf => C06_process hp hg h0 hall hfit hcalm hroom hf⟩

/-! Concrete cases. -/

/-- A put before the fork, saved. -/
def beforeFork : List (WEv Unit) := [.create "a" ()] ++ wput 0 0 "a" "k" 1 ++ wio 0

/-- The child: a put through the inherited handle, one in a directory of its own, which it closes; then the inherited handle is dropped. -/
def forkChild : List (WEv Unit) :=
  wput 0 0 "a" "k" 2 ++ [.create "b" ()] ++ wput 1 1 "b" "x" 3 ++ [.drop1 1, .drop2 1] ++ List.replicate 5 (.io 1 id) ++ [.drop1 0, .drop2 0]

/-- `Serving`, computed. -/
def Inst.servingB (s : Inst ι) : Bool :=
  decide (s.phase = .idle) && s.valid && !s.poisoned && !s.joined && s.lp.sender && decide (s.lp.io ≠ .exited ∧ s.lp.io ≠ .dead)

theorem Inst.serving_of {s : Inst ι} (h : s.servingB = true) : s.Serving := by
  simp only [Inst.servingB, Bool.and_eq_true, decide_eq_true_eq, Bool.not_eq_true'] at h
  obtain ⟨⟨⟨⟨⟨a, b⟩, c⟩, d⟩, e⟩, f⟩ := h
  exact ⟨a, b, c, d, e, f⟩

-- C98_refuted and C98_refuted_clear: the state at the fork is reachable and meets their hypotheses.
example : ∃ w rs0 hd, (start (fun _ => none) []).run twoDirs beforeFork = some (w, rs0) ∧ w.handles[0]? = some hd ∧ hd.st = .live ∧
    hd.dir = "a" ∧ (∃ ob, w.objs[hd.obj]? = some ob ∧ ob.inst.Serving) ∧
    ∀ (o : Nat) (ob : Obj Unit), w.objs[o]? = some ob → twoDirs.fileOf ob.dir = twoDirs.fileOf hd.dir →
      ob.inst.phase = .closed ∨ ob.inst.Serving := by
  have h : (match (start (fun _ => none) []).run twoDirs beforeFork with
    | none => false
    | some (w, _) => decide (w.handles = [⟨"a", 0, .live⟩]) && decide (w.objs.length = 1) && w.objs.all fun ob => ob.inst.servingB) = true := by
    decide +kernel
  split at h
  · cases h
  rename_i w rs hr
  simp only [Bool.and_eq_true, decide_eq_true_eq, List.all_eq_true] at h
  obtain ⟨⟨h1, h2⟩, h3⟩ := h
  have hs : ∀ (o : Nat) (ob : Obj Unit), w.objs[o]? = some ob → ob.inst.Serving := fun o ob ho =>
    Inst.serving_of (h3 ob (List.mem_of_getElem? ho))
  refine ⟨w, rs, ⟨"a", 0, .live⟩, hr, by rw [h1]; rfl, rfl, rfl, ?_, fun o ob ho _ => .inr (hs o ob ho)⟩
  have : 0 < w.objs.length := by omega
  exact ⟨w.objs[0], List.getElem?_eq_getElem this, hs 0 _ (List.getElem?_eq_getElem this)⟩

-- The child's history: all calls return, the put shows, "b" is saved, "a" is not, and the last drop waits for ever.
example : (((start (fun _ => none) []).run twoDirs beforeFork).bind fun p => (p.1.run twoDirs forkChild).map fun q =>
      (decide (q.1.fileAt 0 = p.1.fileAt 0), decide (q.1.fileAt 1 = p.1.fileAt 1), q.1.objs.map fun ob => ob.inst.joinResult)) =
    some (true, false, [none, some true]) := by decide +kernel

example : (((start (fun _ => none) []).run twoDirs (beforeFork ++ wput 0 0 "a" "k" 2)).map fun p => wget p.1 0 "k") =
    some (some (.ok 2)) := by decide +kernel

-- C98_refuted_drop: the state before the last release.
example : ∃ w rs hd ob, (start (fun _ => none) []).run twoDirs (beforeFork ++ wput 0 0 "a" "k" 2 ++ [.drop1 0]) = some (w, rs) ∧
    w.handles[0]? = some hd ∧ hd.st = .unlisted ∧ (∀ h2 hd2, w.handles[h2]? = some hd2 → h2 ≠ 0 → hd2.obj = hd.obj → hd2.st = .gone) ∧
    w.objs[hd.obj]? = some ob ∧ ob.inst.Serving := by
  have h : (match (start (fun _ => none) []).run twoDirs (beforeFork ++ wput 0 0 "a" "k" 2 ++ [.drop1 0]) with
    | none => false
    | some (w, _) => decide (w.handles = [⟨"a", 0, .unlisted⟩]) && decide (w.objs.length = 1) && w.objs.all fun ob => ob.inst.servingB)
      = true := by decide +kernel
  split at h
  · cases h
  rename_i w rs hr
  simp only [Bool.and_eq_true, decide_eq_true_eq, List.all_eq_true] at h
  obtain ⟨⟨h1, h2⟩, h3⟩ := h
  have : 0 < w.objs.length := by omega
  refine ⟨w, rs, ⟨"a", 0, .unlisted⟩, w.objs[0], hr, by rw [h1]; rfl, rfl, ?_, List.getElem?_eq_getElem this,
    Inst.serving_of (h3 _ (List.getElem_mem this))⟩
  intro h2' hd2 hh2 hne _
  rw [h1] at hh2
  rcases h2' with _ | n
  · exact absurd rfl hne
  · simp at hh2

-- C98_partial.
example : Plain twoDirs 64 ∧ GoodNames (fun _ => none) [] ∧
    (∀ f, FileMap 64 0 (((start (fun _ => none) [] : World Unit).fileAt f).getD []) Store.empty) ∧
    (∀ e ∈ beforeFork ++ forkChild, e.Fits 64) ∧ CalmRun twoDirs (start (fun _ => none) []) (beforeFork ++ forkChild) ∧
    64 * (0 + (beforeFork ++ forkChild).length) + 8 < 2 ^ 64 ∧ ∀ e ∈ forkChild, e.InChild 1 := by
  refine ⟨⟨by decide, by decide, rfl, rfl, rfl⟩, .none, fun _ => fileMap_empty, ?_, calmRun_of _ (by decide +kernel), by decide, ?_⟩
  · have hput : ∀ h o d k v, (kvToBytes ⟨k, 0, [0, 0, 0, v]⟩).length ≤ 59 → ∀ e ∈ wput h o d k v, e.Fits 64 := by
      intro h o d k v hl e he
      simp only [wput, List.mem_cons, List.not_mem_nil, or_false] at he
      rcases he with rfl | rfl | rfl
      · simp only [WEv.Fits, evOf, Ev.Fits, recordSize]; omega
      · trivial
      · trivial
    have hio : ∀ o n, ∀ e ∈ List.replicate n (WEv.io o id : WEv Unit), e.Fits 64 := by
      intro o n e he
      rw [List.mem_replicate] at he
      obtain ⟨_, rfl⟩ := he
      exact fun l => List.Perm.refl l
    intro e he
    simp only [beforeFork, forkChild, List.mem_append, or_assoc] at he
    rcases he with he | he | he | he | he | he | he | he | he
    · simp only [List.mem_cons, List.not_mem_nil, or_false] at he; subst he; trivial
    · exact hput _ _ _ _ _ (by decide) e he
    · exact hio _ _ e he
    · exact hput _ _ _ _ _ (by decide) e he
    · simp only [List.mem_cons, List.not_mem_nil, or_false] at he; subst he; trivial
    · exact hput _ _ _ _ _ (by decide) e he
    · simp only [List.mem_cons, List.not_mem_nil, or_false] at he; rcases he with rfl | rfl <;> trivial
    · exact hio _ _ e he
    · simp only [List.mem_cons, List.not_mem_nil, or_false] at he; rcases he with rfl | rfl <;> trivial
  · intro e he
    simp only [forkChild, wput, List.cons_append, List.nil_append, List.mem_append, List.mem_cons, List.not_mem_nil, or_false,
      List.mem_replicate] at he
    cases e with
    | io o ord => simp at he; simp [WEv.InChild, he.1]
    | _ => trivial
end Mmkv
