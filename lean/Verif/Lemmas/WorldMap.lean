import Verif.Props.World
/-! Every data file of a process stands for a plain map, as long as a file is only opened when earlier stores on it have
finished closing. -/

namespace Mmkv
open Spec World

/-- The mutating calls of a history on one data file, in the order they took the lock. -/
def callsOf {ι : Type} (S : Sys ι) (f : Nat) (es : List (WEv ι)) : List Mutation :=
  es.filterMap fun
    | .call _ dir m => if S.fileOf dir = f then some m else none
    | _ => none

theorem callsOf_cons {ι : Type} (S : Sys ι) (f : Nat) (e : WEv ι) (es : List (WEv ι)) :
    callsOf S f (e :: es) = callsOf S f [e] ++ callsOf S f es := by
  unfold callsOf
  rw [List.filterMap_cons, List.filterMap_cons, List.filterMap_nil]
  split <;> simp_all

theorem callsOf_not_call {ι : Type} (S : Sys ι) (f : Nat) {e : WEv ι} (h : ∀ k d m, e ≠ .call k d m) : callsOf S f [e] = [] := by
  cases e <;> simp_all [callsOf]

/-- When an event opens a store anew, every earlier store on the same data file has finished closing. -/
def Calm {ι : Type} (S : Sys ι) (w : World ι) : WEv ι → Prop
  | .create dir _ => w.upgrade dir = none → ∀ (o : Nat) (ob : Obj ι), w.objs[o]? = some ob → S.fileOf ob.dir = S.fileOf dir →
      ob.inst.closedOk
  | _ => True

/-- The calls of an event keep to what the environment allows. -/
def WEv.Ok {ι : Type} (E : Env ι) : WEv ι → Prop
  | .call _ _ m => (evOf m : Ev ι).Ok E
  | .io _ ord => ∀ l, (ord l).Perm l
  | _ => True

theorem Inst.removed_mono {ι : Type} {codecs : ι → Codec} {s s' : Inst ι} {e : Ev ι} {r : Option (Out Unit)}
    (h : Inst.step codecs s e = some (s', r)) (hp : ∀ i, e = .api i → s.phase ≠ .clrOpen) (hr : s.lp.cb.removed = true) :
    s'.lp.cb.removed = true := by
  cases e with
  | put k t bs =>
    simp only [Inst.step] at h
    repeat' split at h
    all_goals first | (injection h with h; injection h with h1 h2; subst h1; exact hr) | cases h
  | delete k =>
    simp only [Inst.step] at h
    repeat' split at h
    all_goals first | (injection h with h; injection h with h1 h2; subst h1; exact hr) | cases h
  | clear =>
    simp only [Inst.step] at h
    repeat' split at h
    all_goals first | (injection h with h; injection h with h1 h2; subst h1; exact hr) | cases h
  | drop =>
    simp only [Inst.step] at h
    repeat' split at h
    all_goals first | (injection h with h; injection h with h1 h2; subst h1; exact hr) | cases h
  | io o =>
    simp only [Inst.step] at h
    split at h
    · cases h
    · rename_i lp hlp
      injection h with h; injection h with h1 h2; subst h1
      simp only
      unfold Looper.ioStep at hlp
      split at hlp
      · split at hlp
        · injection hlp with hlp; subst hlp; exact hr
        · injection hlp with hlp; subst hlp; exact hr
        · split at hlp
          · cases hlp
          · injection hlp with hlp; subst hlp; exact hr
      · injection hlp with hlp; subst hlp; exact hr
      · split at hlp
        · injection hlp with hlp; subst hlp; exact hr
        · rename_i j rest _
          split at hlp
          · rename_i cb hcb
            injection hlp with hlp; subst hlp
            simp only
            cases j with
            | write b dup =>
              simp only [execJob] at hcb
              split at hcb
              · injection hcb with hcb; subst hcb; exact hr
              · cases hcb
            | remove =>
              simp only [execJob] at hcb
              injection hcb with hcb; subst hcb; rfl
          · rename_i cb hcb
            injection hlp with hlp; subst hlp
            simp only
            cases j with
            | write b dup =>
              simp only [execJob] at hcb
              split at hcb
              · cases hcb
              · injection hcb with hcb; subst hcb; exact hr
            | remove =>
              simp only [execJob] at hcb
              cases hcb
      · injection hlp with hlp; subst hlp; exact hr
      · cases hlp
      · cases hlp
  | api i =>
    have hpush : ∀ j, (Looper.push s.lp j).cb = s.lp.cb := by intro j; unfold Looper.push; split <;> rfl
    have hsend : (Looper.send s.lp).1.cb = s.lp.cb := by
      unfold Looper.send; split
      · split <;> rfl
      · rfl
    have hquit : (Looper.quitSend s.lp).1.cb = s.lp.cb := by
      unfold Looper.quitSend; split
      · split <;> rfl
      · rfl
    simp only [Inst.step] at h
    cases hph : s.phase <;> simp only [hph] at h
    case idle => cases h
    case closed => cases h
    case push j => injection h with h; injection h with h1 h2; subst h1; simp only [hpush]; exact hr
    case send => injection h with h; injection h with h1 h2; subst h1; simp only [hsend]; exact hr
    case clrPush => injection h with h; injection h with h1 h2; subst h1; simp only [hpush]; exact hr
    case clrSend => split at h <;> (injection h with h; injection h with h1 h2; subst h1; simp only [hsend]; exact hr)
    case clrQuit => split at h <;> (injection h with h; injection h with h1 h2; subst h1; simp only [hquit]; exact hr)
    case clrJoin =>
      repeat' split at h
      all_goals first | (injection h with h; injection h with h1 h2; subst h1; exact hr) | cases h
    case clrOpen => exact absurd hph (hp i rfl)

/-- A store that has finished closing takes no step. -/
theorem Inst.closedOk_stuck {ι : Type} {codecs : ι → Codec} {s : Inst ι} (h : s.closedOk) (f : Bytes) (e : Ev ι) :
    Inst.step codecs (s.withFile f) e = none := by
  obtain ⟨h1, h2⟩ := h
  cases e with
  | io o => simp [Inst.step, Inst.withFile, Looper.ioStep, h2]
  | _ => simp [Inst.step, h1]

theorem Inst.withFile_self {ι : Type} (s : Inst ι) : s.withFile s.lp.cb.ws.file = s := rfl

/-- At the end of a `clear_data` on which nothing failed the file is gone. -/
theorem Inst.removed_clrOpen {ι : Type} {codecs : ι → Codec} {s : Inst ι} (h : Book codecs s) (hp : s.phase = .clrOpen) :
    s.lp.cb.removed = true := by
  obtain ⟨cb0, _, hinv⟩ := h.inv
  have hex := (h.joined hp).1
  have hpre := hinv.exited_all hex
  obtain ⟨W, hW, _⟩ := h.jobsC (by simp [hp, Phase.clearing])
  rw [h.removed]
  apply hpre.subset
  have : s.jobs = s.lp.pushed := by simp [Inst.jobs, hp, Phase.inflight]
  rw [← this, hW]; simp

/-- The key and nonce `i` are right for data file `f`: those of the last store opened on it (they are in its nonce file), or, if none was,
ones allowed at the start. -/
def Keyed {ι : Type} (S : Sys ι) (J : Nat → ι → Prop) (w : World ι) (f : Nat) (i : ι) : Prop :=
  ((∀ (o : Nat) (ob : Obj ι), w.objs[o]? = some ob → S.fileOf ob.dir ≠ f) → J f i) ∧
  ∀ (o : Nat) (ob : Obj ι), w.objs[o]? = some ob → S.fileOf ob.dir = f →
    (∀ (p : Nat) (x : Obj ι), w.objs[p]? = some x → S.fileOf x.dir = f → p ≤ o) → i = ob.inst.idx

/-- An event opens stores with a valid key, and existing files with the nonce they were written with. -/
def WEv.Keyed {ι : Type} (S : Sys ι) (J : Nat → ι → Prop) (w : World ι) : WEv ι → Prop
  | .create dir i => w.upgrade dir = none → S.keyOk i = true ∧ Mmkv.Keyed S J w (S.fileOf dir) i
  | .cont _ i => S.keyOk i = true
  | _ => True

variable {ι : Type}

/-- Invariant of one data file: `S0` its map at the start, `cs` the calls on it since. -/
def FileInv (E : Env ι) (S : Sys ι) (J : Nat → ι → Prop) (K : Nat) (f : Nat) (S0 : Store) (cs : List Mutation) (w : World ι) : Prop :=
  ((∀ (o : Nat) (ob : Obj ι), w.objs[o]? = some ob → S.fileOf ob.dir ≠ f) ∧
      ∀ i, J f i → GoodFile E (E.codecs i) (K + cs.length) ((w.fileAt f).getD []) (S0.run cs)) ∨
  ∃ (o : Nat) (ob : Obj ι) (pre post : List Mutation), w.objs[o]? = some ob ∧ S.fileOf ob.dir = f ∧
    (∀ (p : Nat) (x : Obj ι), p ≠ o → w.objs[p]? = some x → S.fileOf x.dir = f → x.inst.closedOk ∧ p < o) ∧
    cs = pre ++ post ∧ DInv E (S0.run pre) (K + pre.length) post ob.inst ∧
    ob.inst.lp.cb.ws.file = w.content ob.inode ∧
    w.names f = if ob.inst.lp.cb.removed then none else some ob.inode

theorem FileInv.same {E : Env ι} {S : Sys ι} {J : Nat → ι → Prop} {K f : Nat} {S0 : Store} {cs : List Mutation} {w w' : World ι}
    (h : FileInv E S J K f S0 cs w) (hs : SameFor S f w w') : FileInv E S J K f S0 cs w' := by
  rcases h with ⟨h1, h2⟩ | ⟨o, ob, pre, post, h1, h2, h3, h4, h5, h6, h7⟩
  · exact .inl ⟨fun o ob ho hf => h1 o ob (hs.back ho hf) hf, by rw [hs.file]; exact h2⟩
  · obtain ⟨g1, g2⟩ := hs.objs h1 h2
    exact .inr ⟨o, ob, pre, post, g1, h2, fun p x hp hx hf => h3 p x hp (hs.back hx hf) hf, h4, h5, by rw [g2]; exact h6,
      by rw [hs.names]; exact h7⟩

/-- What the file holds once all stores on it have finished closing. -/
theorem FileInv.at_rest {E : Env ι} {S : Sys ι} {J : Nat → ι → Prop} {K f : Nat} {S0 : Store} {cs : List Mutation} {w : World ι}
    (h : FileInv E S J K f S0 cs w)
    (hc : ∀ (o : Nat) (ob : Obj ι), w.objs[o]? = some ob → S.fileOf ob.dir = f → ob.inst.closedOk) {i : ι} (hi : Mmkv.Keyed S J w f i) :
    GoodFile E (E.codecs i) (K + cs.length) ((w.fileAt f).getD []) (S0.run cs) := by
  rcases h with ⟨h1, h2⟩ | ⟨o, ob, pre, post, h1, h2, h3, h4, h5, h6, h7⟩
  · exact h2 i (hi.1 h1)
  · have hii : i = ob.inst.idx := hi.2 o ob h1 h2 fun p x hx hf => by
      by_cases hp : p = o
      · omega
      · exact Nat.le_of_lt (h3 p x hp hx hf).2
    subst hii
    obtain ⟨hnr, hg⟩ := Inst.disk_closed h5 (hc o ob h1 h2)
    have hd : (w.fileAt f).getD [] = ob.inst.disk := by
      simp [fileAt, h7, Inst.disk, hnr, h6]
    rw [hd, h4, run_append, List.length_append, ← Nat.add_assoc]
    exact hg

/-- At any moment between two background writes the file holds a first part of the calls. -/
theorem FileInv.at_any_time {E : Env ι} {S : Sys ι} {J : Nat → ι → Prop} {K f : Nat} {S0 : Store} {cs : List Mutation} {w : World ι}
    (h : FileInv E S J K f S0 cs w) {i : ι}
    (hJ : (∀ (o : Nat) (ob : Obj ι), w.objs[o]? = some ob → S.fileOf ob.dir ≠ f) → J f i) (hi : w.fileAt f ≠ none → Mmkv.Keyed S J w f i) :
    ∃ m, m ≤ cs.length ∧ GoodFile E (E.codecs i) (K + cs.length) ((w.fileAt f).getD []) (S0.run (cs.take m)) := by
  rcases h with ⟨h1, h2⟩ | ⟨o, ob, pre, post, h1, h2, h3, h4, h5, h6, h7⟩
  · exact ⟨cs.length, Nat.le_refl _, by rw [List.take_of_length_le (Nat.le_refl _)]; exact h2 i (hJ h1)⟩
  · obtain ⟨m, hm, hg⟩ := Inst.disk_prefix h5 i (fun hr => (hi (by simp [fileAt, h7, hr])).2 o ob h1 h2 fun p x hx hf => by
      by_cases hp : p = o
      · omega
      · exact Nat.le_of_lt (h3 p x hp hx hf).2)
    have hd : (w.fileAt f).getD [] = ob.inst.disk := by
      cases hr : ob.inst.lp.cb.removed with
      | false => simp [fileAt, h7, Inst.disk, hr, h6]
      | true => simp [fileAt, h7, Inst.disk, hr]
    refine ⟨pre.length + m, by rw [h4]; simp; omega, ?_⟩
    rw [hd, h4, List.take_append, List.take_of_length_le (by omega), Nat.add_sub_cancel_left, run_append,
      List.length_append, ← Nat.add_assoc]
    exact hg

theorem configNew_idem (page : Nat) (f : Bytes) : configNew page (configNew page f) = configNew page f := by
  unfold configNew
  split
  · split
    · rfl
    · rfl
  · simp

theorem openAt_configNew {ι : Type} (codecs : ι → Codec) (i : ι) (page : Nat) (f : Bytes) :
    Inst.openAt codecs i page (configNew page f) = Inst.openAt codecs i page f := by
  unfold Inst.openAt openStore
  rw [configNew_idem]

theorem openAt_file {ι : Type} {codecs : ι → Codec} {i : ι} {page : Nat} {f : Bytes} {u : Nat} {q : Option Nat} {s : Inst ι}
    (h : Inst.openAt codecs i page f u q = some s) : s.lp.cb.ws.file = configNew page f ∧ s.lp.cb.removed = false := by
  unfold Inst.openAt at h
  split at h
  · cases h
  · rename_i o ho
    injection h with h; subst h
    refine ⟨?_, rfl⟩
    unfold openStore at ho
    simp only at ho
    split at ho
    · cases ho
    · split at ho
      · cases ho
      · injection ho with ho; subst ho; rfl

theorem touch_names {ι : Type} (w : World ι) (page name : Nat) :
    (w.touch page name).1.names name = some (w.touch page name).2 := by
  unfold touch
  split
  · assumption
  · simp

theorem touch_content {ι : Type} {S : Sys ι} {w : World ι} (R : Reg S w) (page name : Nat) :
    (w.touch page name).1.content (w.touch page name).2 = configNew page ((w.fileAt name).getD []) := by
  obtain ⟨own, h1, _⟩ := R.own
  unfold touch
  split
  · rename_i n hn
    have := (h1 _ _ hn).2
    simp only [content, fileAt, hn, Option.map_some, Option.getD_some]
    rw [List.getElem?_set_self this]; rfl
  · rename_i hn
    simp [content, fileAt, hn]

/-- One event keeps the invariant of every data file, and no call fails. -/
theorem fileInv_step {E : Env ι} {S : Sys ι} {J : Nat → ι → Prop} {K : Nat} {S0 : Nat → Store} {cs : Nat → List Mutation} {w w' : World ι}
    {e : WEv ι} {r : WRes} (hcod : S.codecs = E.codecs) (hpg : S.page = E.page) (hkey : e.Keyed S J w)
    (R : Reg S w) (h : ∀ f, FileInv E S J K f (S0 f) (cs f) w) (he : e.Ok E) (hcalm : Calm S w e)
    (hroom : ∀ f, E.Room (K + (cs f).length)) (hst : w.step S e = some (w', r)) :
    (∀ x, r = .ret x → x = .ok ()) ∧ ∀ f, FileInv E S J K f (S0 f) (cs f ++ callsOf S f [e]) w' := by
  -- it is enough to look at the file the event is about
  suffices hsuf : ∀ f, e.file? S w = some f → (∀ x, r = .ret x → x = .ok ()) ∧ FileInv E S J K f (S0 f) (cs f ++ callsOf S f [e]) w' by
    have hfile : ∃ f, e.file? S w = some f := by
      cases e with
      | lookup dir => exact ⟨_, rfl⟩
      | create dir i => exact ⟨_, rfl⟩
      | call k dir m => exact ⟨_, rfl⟩
      | cont o i =>
        cases ho : w.objs[o]? with
        | none => simp [World.step, ho] at hst
        | some ob => exact ⟨S.fileOf ob.dir, by simp [WEv.file?, ho]⟩
      | io o ord =>
        cases ho : w.objs[o]? with
        | none => simp [World.step, ho] at hst
        | some ob => exact ⟨S.fileOf ob.dir, by simp [WEv.file?, ho]⟩
      | drop1 k =>
        cases ho : w.handles[k]? with
        | none => simp [World.step, ho] at hst
        | some hd => exact ⟨S.fileOf hd.dir, by simp [WEv.file?, ho]⟩
      | drop2 k =>
        cases ho : w.handles[k]? with
        | none => simp [World.step, ho] at hst
        | some hd => exact ⟨S.fileOf hd.dir, by simp [WEv.file?, ho]⟩
    obtain ⟨f0, hf0⟩ := hfile
    refine ⟨(hsuf f0 hf0).1, fun f => ?_⟩
    by_cases hff : f = f0
    · subst hff; exact (hsuf f hf0).2
    · have hne : e.file? S w ≠ some f := by rw [hf0]; intro hh; injection hh with hh; exact hff hh.symm
      have hc : callsOf S f [e] = [] := by
        cases e with
        | call k dir m =>
          have : S.fileOf dir ≠ f := fun hh => hne (by simp [WEv.file?, hh])
          simp [callsOf, this]
        | _ => rfl
      rw [hc, List.append_nil]
      exact (h f).same (same_step R hst hne)
  intro f hf
  obtain ⟨own, o1, o2⟩ := R.own
  cases step_moves hst with
  | quiet ho hn hi hnc hr =>
    refine ⟨fun x hx => absurd hx (hr x), ?_⟩
    rw [callsOf_not_call S f hnc, List.append_nil]
    have hco : ∀ n, w'.content n = w.content n := fun n => by unfold content; rw [hi]
    rcases h f with ⟨h1, h2⟩ | ⟨o, ob, pre, post, h1, h2, h3, h4, h5, h6, h7⟩
    · refine .inl ⟨by rw [ho]; exact h1, ?_⟩
      have : w'.fileAt f = w.fileAt f := by unfold fileAt; rw [hn]; congr 1; funext n; exact hco n
      rw [this]; exact h2
    · exact .inr ⟨o, ob, pre, post, by rw [ho]; exact h1, h2, by rw [ho]; exact h3, h4, h5, by rw [hco]; exact h6, by rw [hn]; exact h7⟩
  | @touched dir i hu hcause ho hn hi =>
    exfalso
    have hfd : S.fileOf dir = f := by simpa [WEv.file?] using hf
    subst hfd
    have hg := (h (S.fileOf dir)).at_rest (hcalm hu) (hkey hu).2
    obtain ⟨s, hs, _, _⟩ := Inst.dinv_open hg
    rcases hcause with hc | hc
    · rw [(hkey hu).1] at hc; cases hc
    · rw [touch_content R, openAt_configNew, hcod, hpg, hs] at hc; cases hc
  | @opened dir i s hu hs ho hn hi =>
    have hfd : S.fileOf dir = f := by simpa [WEv.file?] using hf
    subst hfd
    refine ⟨by simp, ?_⟩
    rw [callsOf_not_call S _ (by simp), List.append_nil]
    have hg := (h (S.fileOf dir)).at_rest (hcalm hu) (hkey hu).2
    obtain ⟨s1, hs1, hd1, _⟩ := Inst.dinv_open hg
    rw [touch_content R, openAt_configNew, hcod, hpg, hs1] at hs
    injection hs with hs; subst hs
    obtain ⟨hfile, hrem⟩ := openAt_file hs1
    refine .inr ⟨w.objs.length, { inst := s1, dir := dir, inode := (w.touch S.page (S.fileOf dir)).2 }, cs (S.fileOf dir), [],
      by rw [ho]; simp, rfl, ?_, by simp, hd1, ?_, ?_⟩
    · intro p x hp hx hfx
      rw [ho, List.getElem?_append] at hx
      split at hx
      · rename_i hlt
        exact ⟨hcalm hu p x hx hfx, hlt⟩
      · rw [List.getElem?_singleton] at hx
        split at hx
        · exact absurd (by omega) hp
        · cases hx
    · have : w'.content (w.touch S.page (S.fileOf dir)).2 = (w.touch S.page (S.fileOf dir)).1.content (w.touch S.page (S.fileOf dir)).2 := by
        unfold content; rw [hi]
      simp only
      rw [this, touch_content R, hfile, hpg]
    · simp only [hrem]
      rw [hn, touch_names]; rfl
  | @reopened o i ob s' r' hob hp hst' ho hn hi =>
    have hfd : S.fileOf ob.dir = f := by simpa [WEv.file?, hob] using hf
    subst hfd
    rw [callsOf_not_call S _ (by simp), List.append_nil]
    rcases h (S.fileOf ob.dir) with ⟨h1, _⟩ | ⟨o', ob', pre, post, h1, h2, h3, h4, h5, h6, h7⟩
    · exact absurd rfl (h1 o ob hob)
    have hoo : o' = o := by
      refine Decidable.byContradiction fun hne => ?_
      have := (h3 o ob (fun e => hne e.symm) hob rfl).1.1
      rw [hp] at this; cases this
    subst hoo
    rw [hob] at h1; injection h1 with h1; subst h1
    have hrem := Inst.removed_clrOpen h5.book hp
    have hfa : w.fileAt (S.fileOf ob.dir) = none := by simp [fileAt, h7, hrem]
    rw [hfa, Inst.reopenStep, if_neg (by rw [show S.keyOk i = true from hkey]; simp)] at hst'
    have hroom' : E.Room (K + pre.length + post.length) := by
      have := hroom (S.fileOf ob.dir); rw [h4, List.length_append, ← Nat.add_assoc] at this; exact this
    have hst2 : Inst.step E.codecs ob.inst (.api i) = some (s', r') := by
      rw [hcod] at hst'
      have hjo := (h5.book.joined hp).2
      simp only [Inst.step, Inst.atName, hp, Inst.disk, Option.isNone_none, if_true, hjo] at hst'
      split at hst'
      · rename_i hno
        exfalso
        have hpan : Inst.step E.codecs ob.inst (.api i) = some ({ ob.inst with poisoned := true, phase := .idle }, some .panic) := by
          simp only [Inst.step, hp, Inst.disk, hrem, if_true, hno]
        have := (Inst.dinv_step h5 (e := .api i) trivial hroom' hpan).1 _ rfl
        cases this
      · rename_i s1 hs1
        simp only [Inst.step, hp, Inst.disk, hrem, if_true, hjo, hs1]
        exact hst'
    obtain ⟨hr1, hd1⟩ := Inst.dinv_step h5 (e := .api i) trivial hroom' hst2
    have hfile : s'.lp.cb.ws.file = configNew E.page [] ∧ s'.lp.cb.removed = false := by
      have hjo := (h5.book.joined hp).2
      simp only [Inst.step, hp, Inst.disk, hrem, if_true, hjo] at hst2
      split at hst2
      · injection hst2 with hst2; injection hst2 with q1 q2; exact absurd (hr1 _ q2.symm) (by simp)
      · rename_i s1 hs1
        injection hst2 with hst2; injection hst2 with q1 q2; subst q1
        rw [← h5.page]; exact openAt_file hs1
    refine ⟨?_, ?_⟩
    · intro x hx
      cases r' with
      | none => simp [retOf] at hx
      | some y => simp only [retOf, WRes.ret.injEq] at hx; subst hx; exact hr1 _ rfl
    · have hlt := getElem?_lt hob
      refine .inr ⟨o', { ob with inst := s', inode := (w.touch S.page (S.fileOf ob.dir)).2, caller := none }, pre, post, (by rw [ho]; exact List.getElem?_set_self hlt), rfl, ?_, h4, ?_, ?_, ?_⟩
      · intro p x hpne hx hfx
        rw [ho, List.getElem?_set_ne (fun e => hpne e.symm)] at hx
        exact h3 p x hpne hx hfx
      · simpa [Ev.call?] using hd1
      · have : w'.content (w.touch S.page (S.fileOf ob.dir)).2 = (w.touch S.page (S.fileOf ob.dir)).1.content (w.touch S.page (S.fileOf ob.dir)).2 := by
          unfold content; rw [hi]
        simp only
        rw [this, touch_content R, hfa, hfile.1, hpg]; rfl
      · simp only [hfile.2]
        rw [hn, touch_names]; rfl
  | @stepped _ o ev ob s' c r' ha hob hst' ho hn hi =>
    have hfd : S.fileOf ob.dir = f := by
      cases ha with
      | @call k d m x hx hxl hxd =>
        obtain ⟨b, g1, g2⟩ := R.hobj hx
        rw [hob] at g1; injection g1 with g1; subst g1
        simpa [WEv.file?, ← hxd, ← g2] using hf
      | cont _ _ => simpa [WEv.file?, hob] using hf
      | io => simpa [WEv.file?, hob] using hf
      | @drop k x hx hxl h0 =>
        obtain ⟨b, g1, g2⟩ := R.hobj hx
        rw [hob] at g1; injection g1 with g1; subst g1
        simpa [WEv.file?, hx, ← g2] using hf
    have hcalls : callsOf S f [e] = ev.call?.toList := by
      cases ha with
      | @call k d m x hx hxl hxd =>
        have : S.fileOf d = f := by simpa [WEv.file?] using hf
        simp [callsOf, this]
      | cont _ _ => simp [callsOf, Ev.call?]
      | io => simp [callsOf, Ev.call?]
      | @drop k x hx hxl h0 => simp [callsOf, Ev.call?]
    have hevok : ev.Ok E := by
      cases ha with
      | call _ _ _ => exact he
      | cont _ _ => trivial
      | io => exact he
      | drop _ _ _ => trivial
    have hnclr : ∀ i, ev = .api i → ob.inst.phase ≠ .clrOpen := by
      intro i
      cases ha with
      | @call k d m x hx hxl hxd => cases m <;> simp [evOf]
      | cont h1 h2 => rw [hob] at h1; injection h1 with h1; subst h1; exact fun _ => h2
      | io => simp
      | drop _ _ _ => simp
    rcases h f with ⟨h1, _⟩ | ⟨o', ob', pre, post, h1, h2, h3, h4, h5, h6, h7⟩
    · exact absurd hfd (h1 o ob hob)
    have hoo : o' = o := by
      refine Decidable.byContradiction fun hne => ?_
      have := (h3 o ob (fun e => hne e.symm) hob hfd).1
      rw [Inst.closedOk_stuck this] at hst'; cases hst'
    subst hoo
    rw [hob] at h1; injection h1 with h1; subst h1
    rw [← h6, Inst.withFile_self, hcod] at hst'
    have hroom' : E.Room (K + pre.length + post.length) := by
      have := hroom f; rw [h4, List.length_append, ← Nat.add_assoc] at this; exact this
    obtain ⟨hr1, hd1⟩ := Inst.dinv_step h5 hevok hroom' hst'
    refine ⟨?_, ?_⟩
    · intro x hx
      cases r' with
      | none => simp [retOf] at hx
      | some y => simp only [retOf, WRes.ret.injEq] at hx; subst hx; exact hr1 _ rfl
    · have hlt := getElem?_lt hob
      refine .inr ⟨o', { ob with inst := s', caller := c }, pre, post ++ ev.call?.toList, by rw [ho]; exact List.getElem?_set_self hlt, h2, ?_,
        by rw [h4, hcalls, List.append_assoc], hd1, ?_, ?_⟩
      · intro p x hpne hx hfx
        rw [ho, List.getElem?_set_ne (fun e => hpne e.symm)] at hx
        exact h3 p x hpne hx hfx
      · have hl := (o2 _ _ hob).2
        simp only [content, hi]
        rw [List.getElem?_set_self hl]; rfl
      · simp only
        rw [hn, hfd]
        cases hrm : ob.inst.lp.cb.removed with
        | true =>
          have := Inst.removed_mono hst' hnclr hrm
          simp [this, h7, hrm]
        | false =>
          cases hrm' : s'.lp.cb.removed with
          | true => simp
          | false => simp [h7, hrm]

/-- Every open of the history is calm. -/
def CalmRun {ι : Type} (S : Sys ι) : World ι → List (WEv ι) → Prop
  | _, [] => True
  | w, e :: es => Calm S w e ∧ ∀ w' r, w.step S e = some (w', r) → CalmRun S w' es

/-- Every open of the history is keyed. -/
def KeyedRun {ι : Type} (S : Sys ι) (J : Nat → ι → Prop) : World ι → List (WEv ι) → Prop
  | _, [] => True
  | w, e :: es => e.Keyed S J w ∧ ∀ w' r, w.step S e = some (w', r) → KeyedRun S J w' es

/-- Without encryption there is nothing to agree on. -/
theorem keyed_unit {S : Sys Unit} (h : S.keyOk () = true) (w : World Unit) (e : WEv Unit) : e.Keyed S (fun _ _ => True) w := by
  cases e with
  | create dir i => exact fun _ => ⟨h, fun _ => trivial, fun _ _ _ _ _ => rfl⟩
  | cont o i => exact h
  | _ => trivial

theorem keyedRun_unit {S : Sys Unit} (h : S.keyOk () = true) (es : List (WEv Unit)) : ∀ w : World Unit, KeyedRun S (fun _ _ => True) w es := by
  induction es with
  | nil => exact fun _ => trivial
  | cons e es ih => exact fun w => ⟨keyed_unit h w e, fun w' _ _ => ih w'⟩

theorem fileInv_run [Nonempty ι] {E : Env ι} {S : Sys ι} {J : Nat → ι → Prop} {K : Nat} {S0 : Nat → Store} (hcod : S.codecs = E.codecs)
    (hpg : S.page = E.page) (es : List (WEv ι)) :
    ∀ {cs : Nat → List Mutation} {w w' : World ι} {rs : List WRes}, Reg S w → (∀ f, FileInv E S J K f (S0 f) (cs f) w) →
    (∀ e ∈ es, e.Ok E) → CalmRun S w es → KeyedRun S J w es → (∀ f, E.Room (K + (cs f).length + es.length)) → w.run S es = some (w', rs) →
    (∀ x, .ret x ∈ rs → x = .ok ()) ∧ ∀ f, FileInv E S J K f (S0 f) (cs f ++ callsOf S f es) w' := by
  induction es with
  | nil =>
    intro cs w w' rs _ h _ _ _ _ hrun
    simp only [World.run, Option.some.injEq, Prod.mk.injEq] at hrun
    obtain ⟨rfl, rfl⟩ := hrun
    exact ⟨by simp, fun f => by simpa [callsOf] using h f⟩
  | cons e es ih =>
    intro cs w w' rs R h hok hcalm hkey hroom hrun
    unfold World.run at hrun
    split at hrun
    · cases hrun
    rename_i w1 r hst
    split at hrun
    · cases hrun
    rename_i w2 rs2 hr2
    simp only [Option.some.injEq, Prod.mk.injEq] at hrun
    obtain ⟨rfl, rfl⟩ := hrun
    obtain ⟨h1, h2⟩ := fileInv_step hcod hpg hkey.1 R h (hok e (by simp)) hcalm.1
      (fun f => (hroom f).mono (by simp only [List.length_cons]; omega)) hst
    have hle : ∀ f, (callsOf S f [e]).length ≤ 1 := fun f => by
      unfold callsOf; exact List.length_filterMap_le _ _
    obtain ⟨h3, h4⟩ := ih (R.step hst) h2 (fun e he => hok e (by simp [he])) (hcalm.2 _ _ hst) (hkey.2 _ _ hst)
      (fun f => (hroom f).mono (by have := hle f; simp only [List.length_cons, List.length_append]; omega)) hr2
    refine ⟨fun x hx => ?_, fun f => ?_⟩
    · rcases List.mem_cons.1 hx with hx | hx
      · exact h1 x hx.symm
      · exact h3 x hx
    · rw [callsOf_cons, ← List.append_assoc]; exact h4 f

/-- No tombstone is in any in-memory map. -/
theorem live_step_world {ι : Type} {S : Sys ι} {w w' : World ι} {e : WEv ι} {r : WRes}
    (h : ∀ (o : Nat) (ob : Obj ι), w.objs[o]? = some ob → ob.inst.Live) (hst : w.step S e = some (w', r)) :
    ∀ (o : Nat) (ob : Obj ι), w'.objs[o]? = some ob → ob.inst.Live := by
  intro p x hx
  cases step_moves hst with
  | quiet ho _ _ _ _ => rw [ho] at hx; exact h p x hx
  | touched _ _ ho _ _ => rw [ho] at hx; exact h p x hx
  | opened hu hs ho _ _ =>
    rw [ho, List.getElem?_append] at hx
    split at hx
    · exact h p x hx
    · rw [List.getElem?_singleton] at hx
      split at hx
      · injection hx with hx; subst hx; exact Inst.live_open hs
      · cases hx
  | stepped _ hob hs ho _ _ =>
    rw [ho] at hx
    rcases getElem?_set_cases hx with ⟨rfl, rfl⟩ | ⟨_, hx⟩
    · refine Inst.live_step ?_ hs; exact h _ _ hob
    · exact h p x hx
  | reopened hob _ hs ho _ _ =>
    rw [ho] at hx
    rcases getElem?_set_cases hx with ⟨rfl, rfl⟩ | ⟨_, hx⟩
    · unfold Inst.reopenStep at hs
      split at hs
      · injection hs with hs; injection hs with h1 h2; subst h1
        intro k b hb; exact h _ _ hob k b hb
      · refine Inst.live_step ?_ hs; exact h _ _ hob
    · exact h p x hx

theorem live_run_world {ι : Type} {S : Sys ι} (es : List (WEv ι)) {w w' : World ι} {rs : List WRes}
    (h : ∀ (o : Nat) (ob : Obj ι), w.objs[o]? = some ob → ob.inst.Live) (hrun : w.run S es = some (w', rs)) :
    ∀ (o : Nat) (ob : Obj ι), w'.objs[o]? = some ob → ob.inst.Live := by
  induction es generalizing w rs with
  | nil => simp only [World.run, Option.some.injEq, Prod.mk.injEq] at hrun; obtain ⟨rfl, _⟩ := hrun; exact h
  | cons e es ih =>
    unfold World.run at hrun
    split at hrun
    · cases hrun
    rename_i w1 r hst
    split at hrun
    · cases hrun
    rename_i w2 rs2 hr2
    simp only [Option.some.injEq, Prod.mk.injEq] at hrun
    obtain ⟨rfl, rfl⟩ := hrun
    exact ih (live_step_world h hst) hr2

/-- What a handle shows between two calls. -/
theorem FileInv.handle {E : Env ι} {S : Sys ι} {J : Nat → ι → Prop} {K f : Nat} {S0 : Store} {cs : List Mutation} {w : World ι}
    (h : FileInv E S J K f S0 cs w) (R : Reg S w) (hl : ∀ (o : Nat) (ob : Obj ι), w.objs[o]? = some ob → ob.inst.Live)
    {k : Nat} {hd : Handle} {s : Inst ι} (hk : w.handles[k]? = some hd) (hf : S.fileOf hd.dir = f)
    (hs : w.store? k = some s) (hi : s.phase = .idle) : s.Shows (S0.run cs) := by
  obtain ⟨hd', ob, hk', hlive, hob, rfl⟩ := store_live hs
  rw [hk] at hk'; injection hk' with hk'; subst hk'
  obtain ⟨ob', hob', hdir⟩ := R.hobj hk
  rw [hob] at hob'; injection hob' with hob'; subst hob'
  rcases h with ⟨h1, _⟩ | ⟨o, ob', pre, post, h1, h2, h3, h4, h5, h6, h7⟩
  · exact absurd (by rw [hdir, hf]) (h1 _ _ hob)
  · have hoo : hd.obj = o := by
      refine Decidable.byContradiction fun hne => ?_
      have := (h3 _ _ hne hob (by rw [hdir, hf])).1.1
      rw [hi] at this; cases this
    subst hoo
    rw [hob] at h1; injection h1 with h1; subst h1
    rw [h4, run_append]
    exact (Inst.shows_iff h5.book.poisoned (by rw [h5.book.valid, hi]; rfl) (hl _ _ hob)).2 h5.kvView

end Mmkv
