import Verif.Lemmas.Session
import Verif.Model.World
/-! The registry: what holds in every reachable state of the process. -/

namespace Mmkv
open Spec
variable {ι : Type}

/-- How an event changes the phase of a store. -/
theorem Inst.step_phase {codecs : ι → Codec} {s s' : Inst ι} {e : Ev ι} {r : Option (Out Unit)}
    (h : step codecs s e = some (s', r)) :
    (e.call? ≠ none → s.phase = .idle ∧ s'.phase ≠ .closed) ∧
    (∀ i, e = .api i → s.phase ≠ .idle ∧ s.phase ≠ .closed ∧ s'.phase ≠ .closed) ∧
    (∀ o, e = .io o → s'.phase = s.phase) ∧
    (e = .drop → s.phase = .idle ∧ s'.phase = .closed) := by
  cases e with
  | put k t bs =>
    refine ⟨fun _ => ?_, by simp, by simp, by simp⟩
    simp only [step] at h
    split at h
    · cases h
    · rename_i hg
      have hid : s.phase = .idle := Decidable.byContradiction fun hne => hg (.inl hne)
      refine ⟨hid, ?_⟩
      split at h
      · injection h with h; injection h with h1 h2; subst h1; simp [hid]
      · split at h
        · injection h with h; injection h with h1 h2; subst h1; simp [hid]
        · injection h with h; injection h with h1 h2; subst h1; simp
  | delete k =>
    refine ⟨fun _ => ?_, by simp, by simp, by simp⟩
    simp only [step] at h
    split at h
    · cases h
    · rename_i hg
      have hid : s.phase = .idle := Decidable.byContradiction fun hne => hg hne
      refine ⟨hid, ?_⟩
      split at h
      · injection h with h; injection h with h1 h2; subst h1; simp [hid]
      · split at h
        · injection h with h; injection h with h1 h2; subst h1; simp [hid]
        · split at h
          · injection h with h; injection h with h1 h2; subst h1; simp [hid]
          · injection h with h; injection h with h1 h2; subst h1; simp
  | clear =>
    refine ⟨fun _ => ?_, by simp, by simp, by simp⟩
    simp only [step] at h
    split at h
    · cases h
    · rename_i hg
      have hid : s.phase = .idle := Decidable.byContradiction fun hne => hg hne
      refine ⟨hid, ?_⟩
      split at h
      · injection h with h; injection h with h1 h2; subst h1; simp [hid]
      · split at h
        · injection h with h; injection h with h1 h2; subst h1; simp
        · injection h with h; injection h with h1 h2; subst h1; simp
  | drop =>
    refine ⟨by simp [Ev.call?], by simp, by simp, fun _ => ?_⟩
    simp only [step] at h
    split at h
    · cases h
    · rename_i hg
      have hid : s.phase = .idle := Decidable.byContradiction fun hne => hg hne
      injection h with h; injection h with h1 h2; subst h1; exact ⟨hid, rfl⟩
  | io o =>
    refine ⟨by simp [Ev.call?], by simp, fun _ _ => ?_, by simp⟩
    simp only [step] at h
    split at h
    · cases h
    · injection h with h; injection h with h1 h2; subst h1; rfl
  | api i =>
    refine ⟨by simp [Ev.call?], fun _ _ => ?_, by simp, by simp⟩
    have hopen : ∀ {j p f u q} {x : Inst ι}, openAt codecs j p f u q = some x → x.phase = .idle := by
      intro j p f u q x hx
      unfold openAt at hx
      split at hx
      · cases hx
      · injection hx with hx; subst hx; rfl
    simp only [step] at h
    cases hp : s.phase <;> simp only [hp] at h
    case idle => cases h
    case closed => cases h
    case push j => injection h with h; injection h with h1 h2; subst h1; simp
    case send => injection h with h; injection h with h1 h2; subst h1; simp
    case clrPush => injection h with h; injection h with h1 h2; subst h1; simp
    case clrSend => split at h <;> (injection h with h; injection h with h1 h2; subst h1; simp)
    case clrQuit => split at h <;> (injection h with h; injection h with h1 h2; subst h1; simp)
    case clrJoin =>
      split at h
      · injection h with h; injection h with h1 h2; subst h1; simp
      · split at h
        · injection h with h; injection h with h1 h2; subst h1; simp
        · cases h
    case clrOpen =>
      split at h
      · injection h with h; injection h with h1 h2; subst h1; simp
      · rename_i x hx
        have := hopen hx
        split at h
        · injection h with h; injection h with h1 h2; subst h1; simp [this]
        · split at h
          · injection h with h; injection h with h1 h2; subst h1; simp [this]
          · split at h
            · injection h with h; injection h with h1 h2; subst h1; simp [this]
            · cases h

@[simp] theorem evOf_call (m : Mutation) : (evOf m : Ev ι).call? = some m := by cases m <;> rfl

@[simp] theorem Inst.withFile_phase (s : Inst ι) (f : Bytes) : (s.withFile f).phase = s.phase := rfl
@[simp] theorem Inst.atName_phase (s : Inst ι) (f : Option Bytes) : (s.atName f).phase = s.phase := rfl

namespace World

/-- What holds in every reachable state. -/
structure Reg (S : Sys ι) (w : World ι) : Prop where
  hobj : ∀ {h : Nat} {hd : Handle}, w.handles[h]? = some hd → ∃ ob : Obj ι, w.objs[hd.obj]? = some ob ∧ ob.dir = hd.dir
  listed : ∀ {h : Nat} {hd : Handle}, w.handles[h]? = some hd → hd.st = .live → w.map.get hd.dir = some hd.obj
  mapOk : ∀ {d : String} {o : Nat}, w.map.get d = some o → ∃ ob : Obj ι, w.objs[o]? = some ob ∧ ob.dir = d
  caller : ∀ {o : Nat} {ob : Obj ι} {h : Nat}, w.objs[o]? = some ob → ob.caller = some h → ∃ hd : Handle, w.handles[h]? = some hd ∧ hd.obj = o ∧ hd.st = .live
  under : ∀ {o : Nat} {ob : Obj ι}, w.objs[o]? = some ob → (ob.caller ≠ none ↔ ob.inst.phase ≠ .idle ∧ ob.inst.phase ≠ .closed)
  closed : ∀ {o : Nat} {ob : Obj ι}, w.objs[o]? = some ob → (ob.inst.phase = .closed ↔ w.strong o = 0)
  own : ∃ own : Nat → Nat, (∀ f n, w.names f = some n → own n = f ∧ n < w.inodes.length) ∧
    ∀ (o : Nat) (ob : Obj ι), w.objs[o]? = some ob → own ob.inode = S.fileOf ob.dir ∧ ob.inode < w.inodes.length

theorem strong_pos {w : World ι} {h : Nat} {hd : Handle} (hh : w.handles[h]? = some hd) (hs : hd.st ≠ .gone) :
    0 < w.strong hd.obj := by
  unfold strong
  rw [List.countP_pos_iff]
  exact ⟨hd, List.mem_of_getElem? hh, by simp [hs]⟩

theorem busy_iff {w : World ι} {h : Nat} : w.busy h = true ↔ ∃ (o : Nat) (ob : Obj ι), w.objs[o]? = some ob ∧ ob.caller = some h := by
  unfold busy
  rw [List.any_eq_true]
  constructor
  · rintro ⟨ob, hm, hc⟩
    obtain ⟨o, ho⟩ := List.getElem?_of_mem hm
    exact ⟨o, ob, ho, by simpa using hc⟩
  · rintro ⟨o, ob, ho, hc⟩
    exact ⟨ob, List.mem_of_getElem? ho, by simpa using hc⟩

/-- Unfolding an event of a store. -/
theorem stepObj_eq {S : Sys ι} {w w' : World ι} {o : Nat} {e : Ev ι} {c : Option Nat} {r : Option (Out Unit)}
    (h : w.stepObj S o e c = some (w', r)) :
    ∃ ob s', w.objs[o]? = some ob ∧ Inst.step S.codecs (ob.inst.withFile (w.content ob.inode)) e = some (s', r) ∧
      w' = { w with
        objs := w.objs.set o { ob with inst := s', caller := if s'.phase = .idle then none else c }
        inodes := w.inodes.set ob.inode s'.lp.cb.ws.file
        names := if ob.inst.lp.cb.removed = false ∧ s'.lp.cb.removed = true then
            fun f => if f = S.fileOf ob.dir then none else w.names f
          else w.names } := by
  unfold stepObj at h
  split at h
  · cases h
  · rename_i ob hob
    split at h
    · cases h
    · rename_i s' r' hst
      injection h with h
      injection h with h1 h2
      subst h2
      exact ⟨ob, s', hob, hst, h1.symm⟩

theorem getElem?_set_cases {α : Type} {l : List α} {i j : Nat} {a x : α} (h : (l.set i a)[j]? = some x) :
    (j = i ∧ x = a) ∨ (j ≠ i ∧ l[j]? = some x) := by
  rw [List.getElem?_set] at h
  split at h
  · rename_i hij
    split at h
    · injection h with h; exact .inl ⟨hij.symm, h.symm⟩
    · cases h
  · rename_i hij
    exact .inr ⟨fun hh => hij hh.symm, h⟩

/-- The general step on one store: everything else in the registry stays. -/
theorem Reg.setObj {S : Sys ι} {w : World ι} {o : Nat} {ob ob' : Obj ι} {names : Nat → Option Nat} {inodes : List Bytes}
    (R : Reg S w) (ho : w.objs[o]? = some ob) (hdir : ob'.dir = ob.dir)
    (hcaller : ∀ h, ob'.caller = some h → ∃ hd : Handle, w.handles[h]? = some hd ∧ hd.obj = o ∧ hd.st = .live)
    (hunder : ob'.caller ≠ none ↔ ob'.inst.phase ≠ .idle ∧ ob'.inst.phase ≠ .closed)
    (hclosed : ob'.inst.phase = .closed ↔ w.strong o = 0)
    (hown : ∃ own : Nat → Nat, (∀ f n, names f = some n → own n = f ∧ n < inodes.length) ∧
      (own ob'.inode = S.fileOf ob'.dir ∧ ob'.inode < inodes.length) ∧
      ∀ (p : Nat) (obp : Obj ι), p ≠ o → w.objs[p]? = some obp → own obp.inode = S.fileOf obp.dir ∧ obp.inode < inodes.length) :
    Reg S { w with objs := w.objs.set o ob', names := names, inodes := inodes } := by
  have hlt : o < w.objs.length := by
    rcases Nat.lt_or_ge o w.objs.length with h | h
    · exact h
    · rw [List.getElem?_eq_none h] at ho; cases ho
  have hget : ∀ (p : Nat) (obp : Obj ι), w.objs[p]? = some obp → ∃ x : Obj ι, (w.objs.set o ob')[p]? = some x ∧ x.dir = obp.dir := by
    intro p obp hp
    by_cases hpo : p = o
    · subst hpo
      rw [ho] at hp; injection hp with hp; subst hp
      exact ⟨ob', by simp [hlt], hdir⟩
    · exact ⟨obp, by rw [List.getElem?_set_ne (fun h => hpo h.symm)]; exact hp, rfl⟩
  refine ⟨?_, R.listed, ?_, ?_, ?_, ?_, ?_⟩
  · intro h hd hh
    obtain ⟨x, hx, hxd⟩ := R.hobj hh
    obtain ⟨y, hy, hyd⟩ := hget _ _ hx
    exact ⟨y, hy, hyd.trans hxd⟩
  · intro d p hp
    obtain ⟨x, hx, hxd⟩ := R.mapOk hp
    obtain ⟨y, hy, hyd⟩ := hget _ _ hx
    exact ⟨y, hy, hyd.trans hxd⟩
  · intro p obp h hp hc
    rcases getElem?_set_cases hp with ⟨rfl, rfl⟩ | ⟨_, hp⟩
    · exact hcaller h hc
    · exact R.caller hp hc
  · intro p obp hp
    rcases getElem?_set_cases hp with ⟨rfl, rfl⟩ | ⟨_, hp⟩
    · exact hunder
    · exact R.under hp
  · intro p obp hp
    rcases getElem?_set_cases hp with ⟨rfl, rfl⟩ | ⟨_, hp⟩
    · exact hclosed
    · exact R.closed hp
  · obtain ⟨own, h1, h2, h3⟩ := hown
    refine ⟨own, h1, ?_⟩
    intro p obp hp
    rcases getElem?_set_cases hp with ⟨rfl, rfl⟩ | ⟨hne, hp⟩
    · exact h2
    · exact h3 p obp hne hp

/-- `stepObj` keeps the registry in order. -/
theorem Reg.stepObj {S : Sys ι} {w w' : World ι} {o : Nat} {e : Ev ι} {c : Option Nat} {r : Option (Out Unit)}
    (R : Reg S w) (h : w.stepObj S o e c = some (w', r))
    (hc : ∀ ob s', w.objs[o]? = some ob → Inst.step S.codecs (ob.inst.withFile (w.content ob.inode)) e = some (s', r) →
      (s'.phase = .closed ↔ w.strong o = 0) ∧
      (s'.phase ≠ .idle → (c ≠ none ↔ s'.phase ≠ .closed)) ∧
      (∀ h, c = some h → ∃ hd : Handle, w.handles[h]? = some hd ∧ hd.obj = o ∧ hd.st = .live)) : Reg S w' := by
  obtain ⟨ob, s', hob, hst, rfl⟩ := stepObj_eq h
  obtain ⟨h1, h2, h3⟩ := hc ob s' hob hst
  apply R.setObj hob
  · rfl
  · intro h hh
    simp only at hh
    split at hh
    · cases hh
    · exact h3 h hh
  · simp only
    split
    · rename_i hp; simp [hp]
    · rename_i hp; simp [hp, h2 hp]
  · exact h1
  · obtain ⟨own, ho1, ho2⟩ := R.own
    refine ⟨own, ?_, by simpa using ho2 _ _ hob, fun p obp _ hp => by simpa using ho2 p obp hp⟩
    intro f n hn
    simp only [List.length_set]
    split at hn
    · simp only at hn
      split at hn
      · cases hn
      · exact ho1 f n hn
    · exact ho1 f n hn

theorem touch_objs (w : World ι) (page name : Nat) : (w.touch page name).1.objs = w.objs ∧
    (w.touch page name).1.handles = w.handles ∧ (w.touch page name).1.map = w.map ∧
    (w.touch page name).1.poisoned = w.poisoned := by
  unfold touch; split <;> exact ⟨rfl, rfl, rfl, rfl⟩

theorem Reg.touch {S : Sys ι} {w : World ι} (R : Reg S w) (page name : Nat) :
    Reg S (w.touch page name).1 ∧ (∃ own : Nat → Nat,
      (∀ f n, (w.touch page name).1.names f = some n → own n = f ∧ n < (w.touch page name).1.inodes.length) ∧
      (own (w.touch page name).2 = name ∧ (w.touch page name).2 < (w.touch page name).1.inodes.length) ∧
      ∀ (o : Nat) (ob : Obj ι), w.objs[o]? = some ob → own ob.inode = S.fileOf ob.dir ∧ ob.inode < (w.touch page name).1.inodes.length) := by
  obtain ⟨own, ho1, ho2⟩ := R.own
  have key : ∃ own : Nat → Nat,
      (∀ f n, (w.touch page name).1.names f = some n → own n = f ∧ n < (w.touch page name).1.inodes.length) ∧
      (own (w.touch page name).2 = name ∧ (w.touch page name).2 < (w.touch page name).1.inodes.length) ∧
      ∀ (o : Nat) (ob : Obj ι), w.objs[o]? = some ob → own ob.inode = S.fileOf ob.dir ∧ ob.inode < (w.touch page name).1.inodes.length := by
    unfold World.touch
    split
    · rename_i n hn
      refine ⟨own, ?_, ?_, ?_⟩
      · intro f m hm; simpa using ho1 f m hm
      · simpa using ho1 name n hn
      · intro o ob hob; simpa using ho2 o ob hob
    · rename_i hn
      refine ⟨fun k => if k = w.inodes.length then name else own k, ?_, by simp, ?_⟩
      · intro f m hm
        simp only at hm
        split at hm
        · injection hm with hm; subst hm; subst f; simp
        · obtain ⟨h1, h2⟩ := ho1 f m hm
          simp only [List.length_append, List.length_singleton]
          rw [if_neg (by omega)]
          exact ⟨h1, by omega⟩
      · intro o ob hob
        obtain ⟨h1, h2⟩ := ho2 o ob hob
        simp only [List.length_append, List.length_singleton]
        rw [if_neg (by omega)]
        exact ⟨h1, by omega⟩
  refine ⟨?_, key⟩
  obtain ⟨own', k1, _, k3⟩ := key
  obtain ⟨t1, t2, t3, t4⟩ := touch_objs w page name
  have hs : ∀ o, (w.touch page name).1.strong o = w.strong o := fun o => by unfold strong; rw [t2]
  refine ⟨?_, ?_, ?_, ?_, ?_, ?_, own', k1, ?_⟩
  · rw [t1, t2]; exact R.hobj
  · rw [t2, t3]; exact R.listed
  · rw [t1, t3]; exact R.mapOk
  · rw [t1, t2]; exact R.caller
  · rw [t1]; exact R.under
  · intro o ob hob; rw [hs]; rw [t1] at hob; exact R.closed hob
  · rw [t1]; exact k3

theorem Reg.addHandle {S : Sys ι} {w : World ι} {dir : String} {o : Nat} (R : Reg S w) (hm : w.map.get dir = some o)
    (hs : w.strong o ≠ 0) : Reg S (w.addHandle dir o).1 := by
  have hstrong : ∀ p, (w.addHandle dir o).1.strong p = w.strong p + if o = p then 1 else 0 := by
    intro p
    unfold strong World.addHandle
    simp only [List.countP_append, List.countP_singleton]
    by_cases h : o = p <;> simp [h]
  have hh : ∀ {h : Nat} {hd : Handle}, (w.addHandle dir o).1.handles[h]? = some hd →
      w.handles[h]? = some hd ∨ hd = { dir := dir, obj := o } := by
    intro h hd hh
    simp only [World.addHandle] at hh
    rw [List.getElem?_append] at hh
    split at hh
    · exact .inl hh
    · rw [List.getElem?_singleton] at hh
      split at hh
      · injection hh with hh; exact .inr hh.symm
      · cases hh
  refine ⟨?_, ?_, R.mapOk, ?_, R.under, ?_, R.own⟩
  · intro h hd hhd
    rcases hh hhd with h1 | rfl
    · exact R.hobj h1
    · exact R.mapOk hm
  · intro h hd hhd hl
    rcases hh hhd with h1 | rfl
    · exact R.listed h1 hl
    · exact hm
  · intro p ob h hp hc
    obtain ⟨hd, h1, h2⟩ := R.caller hp hc
    refine ⟨hd, ?_, h2⟩
    simp only [World.addHandle]
    rw [List.getElem?_append_left (by
      rcases Nat.lt_or_ge h w.handles.length with h' | h'
      · exact h'
      · rw [List.getElem?_eq_none h'] at h1; cases h1)]
    exact h1
  · intro p ob hp
    rw [hstrong, R.closed hp]
    constructor
    · intro h0
      rw [h0]
      rw [if_neg]
      intro he; subst he; exact hs h0
    · intro h0; omega

theorem upgrade_eq {w : World ι} {dir : String} {o : Nat} (h : w.upgrade dir = some o) :
    w.map.get dir = some o ∧ w.strong o ≠ 0 := by
  unfold upgrade at h
  split at h
  · cases h
  · rename_i o' ho
    split at h
    · cases h
    · rename_i hs; injection h with h; subst h; exact ⟨ho, hs⟩

/-- A directory whose look-up fails has no handle in use. -/
theorem Reg.no_live {S : Sys ι} {w : World ι} (R : Reg S w) {dir : String} (h : w.upgrade dir = none) {k : Nat} {hd : Handle}
    (hh : w.handles[k]? = some hd) (hl : hd.st = .live) : hd.dir ≠ dir := by
  rintro rfl
  unfold upgrade at h
  rw [R.listed hh hl] at h
  simp only at h
  split at h
  · rename_i hs
    have := strong_pos hh (by simp [hl])
    omega
  · cases h

/-- Opening a new store. -/
theorem Reg.newObj {S : Sys ι} {w : World ι} (R : Reg S w) {dir : String} {s : Inst ι} {n : Nat}
    (hu : w.upgrade dir = none) (hph : s.phase = .idle)
    (hown : ∃ own : Nat → Nat, (∀ f n, w.names f = some n → own n = f ∧ n < w.inodes.length) ∧
      (own n = S.fileOf dir ∧ n < w.inodes.length) ∧
      ∀ (o : Nat) (ob : Obj ι), w.objs[o]? = some ob → own ob.inode = S.fileOf ob.dir ∧ ob.inode < w.inodes.length) :
    Reg S (World.addHandle { w with objs := w.objs ++ [{ inst := s, dir := dir, inode := n }], map := w.map.insert dir w.objs.length }
      dir w.objs.length).1 := by
  have hstrong : ∀ p, (World.addHandle { w with objs := w.objs ++ [{ inst := s, dir := dir, inode := n }], map := w.map.insert dir w.objs.length }
      dir w.objs.length).1.strong p = w.strong p + if w.objs.length = p then 1 else 0 := by
    intro p
    unfold strong World.addHandle
    simp only [List.countP_append, List.countP_singleton]
    by_cases h : w.objs.length = p <;> simp [h]
  have hlt : ∀ {p} {ob : Obj ι}, w.objs[p]? = some ob → p < w.objs.length := by
    intro p ob hp
    rcases Nat.lt_or_ge p w.objs.length with h' | h'
    · exact h'
    · rw [List.getElem?_eq_none h'] at hp; cases hp
  have hob : ∀ {p : Nat} {ob : Obj ι}, (w.objs ++ [({ inst := s, dir := dir, inode := n } : Obj ι)])[p]? = some ob →
      w.objs[p]? = some ob ∨ (p = w.objs.length ∧ ob = { inst := s, dir := dir, inode := n }) := by
    intro p ob hp
    rw [List.getElem?_append] at hp
    split at hp
    · exact .inl hp
    · rw [List.getElem?_singleton] at hp
      split at hp
      · injection hp with hp; exact .inr ⟨by omega, hp.symm⟩
      · cases hp
  have hob' : ∀ {p : Nat} {ob : Obj ι}, w.objs[p]? = some ob →
      (w.objs ++ [({ inst := s, dir := dir, inode := n } : Obj ι)])[p]? = some ob := by
    intro p ob hp
    rw [List.getElem?_append_left (hlt hp)]; exact hp
  have hh : ∀ {h : Nat} {hd : Handle}, (w.handles ++ [({ dir := dir, obj := w.objs.length } : Handle)])[h]? = some hd →
      w.handles[h]? = some hd ∨ hd = { dir := dir, obj := w.objs.length } := by
    intro h hd hh
    rw [List.getElem?_append] at hh
    split at hh
    · exact .inl hh
    · rw [List.getElem?_singleton] at hh
      split at hh
      · injection hh with hh; exact .inr hh.symm
      · cases hh
  have hz : w.strong w.objs.length = 0 := by
    unfold strong
    rw [List.countP_eq_zero]
    intro hd hm
    obtain ⟨k, hk⟩ := List.getElem?_of_mem hm
    obtain ⟨ob, ho, _⟩ := R.hobj hk
    have := hlt ho
    simp; omega
  refine ⟨?_, ?_, ?_, ?_, ?_, ?_, ?_⟩
  · intro h hd hhd
    rcases hh hhd with h1 | rfl
    · obtain ⟨ob, ho, hd'⟩ := R.hobj h1
      exact ⟨ob, hob' ho, hd'⟩
    · exact ⟨{ inst := s, dir := dir, inode := n }, by simp [World.addHandle], rfl⟩
  · intro h hd hhd hl
    simp only [World.addHandle, KvMap.get_insert]
    rcases hh hhd with h1 | rfl
    · rw [if_neg (R.no_live hu h1 hl)]
      exact R.listed h1 hl
    · simp
  · intro d o ho
    simp only [World.addHandle, KvMap.get_insert] at ho ⊢
    split at ho
    · injection ho with ho; subst ho; subst d
      exact ⟨{ inst := s, dir := dir, inode := n }, by simp, rfl⟩
    · obtain ⟨ob, h1, h2⟩ := R.mapOk ho
      exact ⟨ob, hob' h1, h2⟩
  · intro p ob h hp hc
    rcases hob hp with h1 | ⟨_, rfl⟩
    · obtain ⟨hd, h2, h3⟩ := R.caller h1 hc
      refine ⟨hd, ?_, h3⟩
      simp only [World.addHandle]
      rw [List.getElem?_append_left (by
        rcases Nat.lt_or_ge h w.handles.length with h' | h'
        · exact h'
        · rw [List.getElem?_eq_none h'] at h2; cases h2)]
      exact h2
    · cases hc
  · intro p ob hp
    rcases hob hp with h1 | ⟨_, rfl⟩
    · exact R.under h1
    · simp [hph]
  · intro p ob hp
    rw [hstrong]
    rcases hob hp with h1 | ⟨rfl, rfl⟩
    · have := hlt h1
      rw [R.closed h1, if_neg (by omega), Nat.add_zero]
    · simp [hph]
  · obtain ⟨own, h1, h2, h3⟩ := hown
    refine ⟨own, h1, ?_⟩
    intro p ob hp
    rcases hob hp with h4 | ⟨_, rfl⟩
    · exact h3 p ob h4
    · exact h2

theorem openAt_phase {codecs : ι → Codec} {j : ι} {p : Nat} {f : Bytes} {u : Nat} {q : Option Nat} {x : Inst ι}
    (hx : Inst.openAt codecs j p f u q = some x) : x.phase = .idle := by
  unfold Inst.openAt at hx
  split at hx
  · cases hx
  · injection hx with hx; subst hx; rfl

theorem strong_set {w : World ι} {h : Nat} {hd hd' : Handle} (hh : w.handles[h]? = some hd) (ho : hd'.obj = hd.obj) (p : Nat) :
    World.strong { w with handles := w.handles.set h hd' } p + (if hd.obj = p ∧ hd.st ≠ .gone then 1 else 0) =
      w.strong p + (if hd.obj = p ∧ hd'.st ≠ .gone then 1 else 0) := by
  unfold strong
  simp only
  generalize w.handles = l at hh
  induction l generalizing h with
  | nil => simp at hh
  | cons x xs ih =>
    cases h with
    | zero =>
      simp only [List.getElem?_cons_zero, Option.some.injEq] at hh
      subst hh
      simp only [List.set_cons_zero, List.countP_cons, ho]
      by_cases h1 : x.obj = p <;> by_cases h2 : x.st = .gone <;> by_cases h3 : hd'.st = .gone <;> simp [h1, h2, h3]
    | succ h =>
      simp only [List.getElem?_cons_succ] at hh
      have := ih hh
      simp only [List.set_cons_succ, List.countP_cons]
      omega

/-- Changing the state of a handle that is not the caller of anything. -/
theorem Reg.setHandle {S : Sys ι} {w : World ι} {h : Nat} {hd : Handle} {st : HState} {map : KvMap Nat}
    (R : Reg S w) (hh : w.handles[h]? = some hd) (hst : st ≠ .live) (hb : w.busy h = false)
    (hmap : ∀ {k : Nat} {x : Handle}, w.handles[k]? = some x → k ≠ h → x.st = .live → map.get x.dir = some x.obj)
    (hmap2 : ∀ {d : String} {o : Nat}, map.get d = some o → w.map.get d = some o)
    (hcl : ∀ {o : Nat} {ob : Obj ι}, w.objs[o]? = some ob → (ob.inst.phase = .closed ↔
      World.strong { w with handles := w.handles.set h { hd with st := st } } o = 0)) :
    Reg S { w with handles := w.handles.set h { hd with st := st }, map := map } := by
  refine ⟨?_, ?_, ?_, ?_, R.under, hcl, R.own⟩
  · intro k x hx
    rcases getElem?_set_cases hx with ⟨rfl, rfl⟩ | ⟨_, hx⟩
    · obtain ⟨ob, h1, h2⟩ := R.hobj hh
      exact ⟨ob, h1, h2⟩
    · exact R.hobj hx
  · intro k x hx hl
    rcases getElem?_set_cases hx with ⟨rfl, rfl⟩ | ⟨hne, hx⟩
    · exact absurd hl hst
    · exact hmap hx hne hl
  · intro d o hd; exact R.mapOk (hmap2 hd)
  · intro o ob k ho hc
    obtain ⟨x, hx, h2, h3⟩ := R.caller ho hc
    have hne : k ≠ h := by
      rintro rfl
      have : w.busy k = true := busy_iff.2 ⟨o, ob, ho, hc⟩
      rw [hb] at this; cases this
    exact ⟨x, by simp only; rw [List.getElem?_set_ne (fun e => hne e.symm)]; exact hx, h2, h3⟩

theorem Reg.start (S : Sys ι) {names : Nat → Option Nat} {inodes : List Bytes}
    (h1 : ∀ f n, names f = some n → n < inodes.length) (h2 : ∀ f g n, names f = some n → names g = some n → f = g) :
    Reg S (World.start names inodes) := by
  refine ⟨by simp [World.start], by simp [World.start], by simp [World.start, KvMap.get], by simp [World.start],
    by simp [World.start], by simp [World.start], ?_⟩
  classical
  refine ⟨fun n => if h : ∃ f, names f = some n then Classical.choose h else 0, ?_, by simp [World.start]⟩
  intro f n hn
  have hex : ∃ f, names f = some n := ⟨f, hn⟩
  refine ⟨?_, h1 f n hn⟩
  simp only [hex, dif_pos]
  exact h2 _ _ n (Classical.choose_spec hex) hn

/-- The registry stays in order. -/
theorem Reg.step {S : Sys ι} {w w' : World ι} {e : WEv ι} {r : WRes} (R : Reg S w) (h : w.step S e = some (w', r)) :
    Reg S w' := by
  cases e with
  | lookup dir =>
    simp only [World.step] at h
    split at h
    · injection h with h; injection h with h1 h2; subst h1; exact R
    · split at h
      · rename_i o hu
        injection h with h
        obtain ⟨h1, h2⟩ := upgrade_eq hu
        have := R.addHandle h1 h2
        rw [h] at this; exact this
      · injection h with h; injection h with h1 h2; subst h1; exact R
  | create dir i =>
    simp only [World.step] at h
    split at h
    · injection h with h; injection h with h1 h2; subst h1; exact R
    · split at h
      · rename_i o hu
        injection h with h
        obtain ⟨h1, h2⟩ := upgrade_eq hu
        have := R.addHandle h1 h2
        rw [h] at this; exact this
      · rename_i hu
        split at h
        · injection h with h; injection h with h1 h2; subst h1
          exact ⟨R.hobj, R.listed, R.mapOk, R.caller, R.under, R.closed, R.own⟩
        · obtain ⟨R1, hown⟩ := R.touch S.page (S.fileOf dir)
          obtain ⟨t1, t2, t3, t4⟩ := touch_objs w S.page (S.fileOf dir)
          have hu1 : (w.touch S.page (S.fileOf dir)).1.upgrade dir = none := by
            unfold upgrade strong; rw [t3, t2]; exact hu
          generalize htw : w.touch S.page (S.fileOf dir) = tw at h R1 hown t1 t2 t3 t4 hu1
          obtain ⟨w1, n⟩ := tw
          simp only at h R1 hown t1 t2 t3 t4 hu1
          rw [← t1] at hown
          split at h
          · injection h with h; injection h with h1 h2; subst h1
            exact ⟨R1.hobj, R1.listed, R1.mapOk, R1.caller, R1.under, R1.closed, R1.own⟩
          · split at h
            · injection h with h; injection h with h1 h2; subst h1
              exact ⟨R1.hobj, R1.listed, R1.mapOk, R1.caller, R1.under, R1.closed, R1.own⟩
            · rename_i s hs
              injection h with h
              have := R1.newObj hu1 (openAt_phase hs) hown
              rw [h] at this; exact this
  | call k dir m =>
    simp only [World.step] at h
    split at h
    · cases h
    · rename_i hd hk
      split at h
      · cases h
      · rename_i hg
        have hl : hd.st = .live := Decidable.byContradiction fun hne => hg (.inl hne)
        rw [Option.map_eq_some_iff] at h
        obtain ⟨⟨w1, r1⟩, hso, hret⟩ := h
        injection hret with h1 h2; subst h1
        apply R.stepObj hso
        intro ob s' hob hst
        obtain ⟨h3, h4⟩ := (Inst.step_phase hst).1 (by simp)
        have hpos := strong_pos hk (by simp [hl])
        refine ⟨⟨fun h => absurd h h4, fun h => by omega⟩, fun _ => by simp [h4], ?_⟩
        intro k' hk'
        injection hk' with hk'; subst hk'
        exact ⟨hd, hk, rfl, hl⟩
  | cont o i =>
    simp only [World.step] at h
    split at h
    · cases h
    · rename_i ob hob
      split at h
      · rename_i hp
        rw [Option.map_eq_some_iff] at h
        obtain ⟨⟨w1, r1⟩, hso, hret⟩ := h
        injection hret with h1 h2; subst h1
        unfold reopen at hso
        split at hso
        · cases hso
        · rename_i s' r' hst
          obtain ⟨R1, hown⟩ := R.touch S.page (S.fileOf ob.dir)
          obtain ⟨t1, t2, t3, t4⟩ := touch_objs w S.page (S.fileOf ob.dir)
          have hids : s'.phase = .idle := by
            unfold Inst.reopenStep at hst
            split at hst
            · injection hst with hst; injection hst with h1 h2; subst h1; rfl
            simp only [Inst.step, Inst.atName_phase, hp] at hst
            split at hst
            · injection hst with hst; injection hst with h1 h2; subst h1; rfl
            · rename_i x hx
              have hxp := openAt_phase hx
              split at hst
              · injection hst with hst; injection hst with h1 h2; subst h1; exact hxp
              · split at hst
                · injection hst with hst; injection hst with h1 h2; subst h1; exact hxp
                · split at hst
                  · injection hst with hst; injection hst with h1 h2; subst h1; exact hxp
                  · cases hst
          have hns : (w.touch S.page (S.fileOf ob.dir)).1.strong o ≠ 0 := by
            have : (w.touch S.page (S.fileOf ob.dir)).1.strong o = w.strong o := by unfold strong; rw [t2]
            rw [this]
            intro h0
            have := (R.closed hob).2 h0
            rw [hp] at this; cases this
          generalize htw : w.touch S.page (S.fileOf ob.dir) = tw at hso R1 hown t1 t2 t3 t4 hns
          obtain ⟨w2, n⟩ := tw
          simp only at hso R1 hown t1 t2 t3 t4 hns
          injection hso with hso; injection hso with h1 h2; subst h1
          have hob2 : w2.objs[o]? = some ob := by rw [t1]; exact hob
          rw [← t1] at hown
          obtain ⟨own, k1, k2, k3⟩ := hown
          exact R1.setObj (names := w2.names) (inodes := w2.inodes) hob2 rfl (by simp) (by simp [hids])
            ⟨fun h => absurd h (by simp [hids]), fun h => absurd h hns⟩
            ⟨own, k1, k2, fun p obp _ hp => k3 p obp hp⟩
      · rw [Option.map_eq_some_iff] at h
        obtain ⟨⟨w1, r1⟩, hso, hret⟩ := h
        injection hret with h1 h2; subst h1
        apply R.stepObj hso
        intro ob' s' hob' hst
        rw [hob] at hob'; injection hob' with hob'; subst hob'
        obtain ⟨h3, h4, h5⟩ := (Inst.step_phase hst).2.1 i rfl
        have hcl := R.closed hob
        refine ⟨⟨fun h => absurd h h5, fun h => absurd (hcl.2 h) h4⟩, fun _ => ⟨fun _ => h5, fun _ => (R.under hob).2 ⟨h3, h4⟩⟩, ?_⟩
        intro k hk
        exact R.caller hob hk
  | io o ord =>
    simp only [World.step] at h
    split at h
    · cases h
    · rename_i ob hob
      rw [Option.map_eq_some_iff] at h
      obtain ⟨⟨w1, r1⟩, hso, hret⟩ := h
      injection hret with h1 h2; subst h1
      apply R.stepObj hso
      intro ob' s' hob' hst
      rw [hob] at hob'; injection hob' with hob'; subst hob'
      have hph : s'.phase = ob.inst.phase := (Inst.step_phase hst).2.2.1 ord rfl
      rw [hph]
      refine ⟨R.closed hob, fun hne => ?_, fun k hk => R.caller hob hk⟩
      rw [R.under hob]
      simp [hne]
  | drop1 k =>
    simp only [World.step] at h
    split at h
    · cases h
    · rename_i hd hk
      split at h
      · cases h
      · rename_i hg
        have hl : hd.st = .live := Decidable.byContradiction fun hne => hg (.inl hne)
        have hb : w.busy k = false := by
          cases hb : w.busy k with
          | false => rfl
          | true => exact absurd (.inr hb) hg
        have hcl : ∀ {o : Nat} {ob : Obj ι}, w.objs[o]? = some ob → (ob.inst.phase = .closed ↔
            World.strong { w with handles := w.handles.set k { hd with st := .unlisted } } o = 0) := by
          intro o ob ho
          rw [R.closed ho]
          have := strong_set (hd' := { hd with st := .unlisted }) hk rfl o
          simp only [hl] at this
          simp at this
          rw [this]
        split at h
        · injection h with h; injection h with h1 h2; subst h1
          exact R.setHandle hk (by simp) hb (fun hx _ hl => R.listed hx hl) (fun h => h) hcl
        · injection h with h; injection h with h1 h2; subst h1
          refine R.setHandle hk (by simp) hb ?_ ?_ hcl
          · intro j x hx hne hxl
            have hxm := R.listed hx hxl
            split
            · rename_i h1
              rw [KvMap.get_erase]
              split
              · rename_i hdir
                exfalso
                have hkm := R.listed hk hl
                rw [hdir, hkm] at hxm
                injection hxm with hxm
                -- two handles in use on one store: the count is at least two
                have h2 := strong_set (hd' := { hd with st := .gone }) hk rfl hd.obj
                simp only [hl] at h2
                simp at h2
                have hx' : (w.handles.set k { hd with st := .gone })[j]? = some x := by
                  rw [List.getElem?_set_ne (fun e => hne e.symm)]; exact hx
                have := strong_pos (w := { w with handles := w.handles.set k { hd with st := .gone } }) hx' (by simp [hxl])
                rw [← hxm] at this
                omega
              · exact hxm
            · exact hxm
          · intro d o hd'
            split at hd'
            · rw [KvMap.get_erase] at hd'
              split at hd'
              · cases hd'
              · exact hd'
            · exact hd'
  | drop2 k =>
    simp only [World.step] at h
    split at h
    · cases h
    · rename_i hd hk
      split at h
      · cases h
      · rename_i hg
        have hl : hd.st = .unlisted := Decidable.byContradiction fun hne => hg hne
        have hb : w.busy k = false := by
          cases hb : w.busy k with
          | false => rfl
          | true =>
            obtain ⟨o, ob, ho, hc⟩ := busy_iff.1 hb
            obtain ⟨x, hx, _, h3⟩ := R.caller ho hc
            rw [hk] at hx; injection hx with hx; subst hx
            rw [hl] at h3; cases h3
        have hset := fun p => strong_set (hd' := { hd with st := .gone }) hk rfl p
        simp only [hl] at hset
        simp at hset
        split at h
        · rename_i h0
          rw [Option.map_eq_some_iff] at h
          obtain ⟨⟨w1, r1⟩, hso, hret⟩ := h
          injection hret with h1 h2; subst h1
          obtain ⟨ob, s', hob, hst, rfl⟩ := stepObj_eq hso
          obtain ⟨_, hcl'⟩ := (Inst.step_phase hst).2.2.2 rfl
          have hobw : w.objs[hd.obj]? = some ob := hob
          have hlt : hd.obj < w.objs.length := by
            rcases Nat.lt_or_ge hd.obj w.objs.length with h | h
            · exact h
            · rw [List.getElem?_eq_none h] at hobw; cases hobw
          -- first the store, then the handle
          have hget : ∀ {p : Nat} {obp : Obj ι}, w.objs[p]? = some obp →
              ∃ x : Obj ι, (w.objs.set hd.obj { ob with inst := s', caller := if s'.phase = .idle then none else none })[p]? = some x ∧ x.dir = obp.dir := by
            intro p obp hp
            by_cases hpo : p = hd.obj
            · subst hpo
              rw [hobw] at hp; injection hp with hp; subst hp
              exact ⟨{ ob with inst := s', caller := if s'.phase = .idle then none else none }, List.getElem?_set_self hlt, rfl⟩
            · exact ⟨obp, by rw [List.getElem?_set_ne (fun h => hpo h.symm)]; exact hp, rfl⟩
          have hlive : ∀ {j : Nat} {x : Handle}, w.handles[j]? = some x → x.st = .live → j ≠ k := by
            rintro j x hx hxl rfl
            rw [hk] at hx; injection hx with hx; subst hx; rw [hl] at hxl; cases hxl
          refine ⟨?_, ?_, ?_, ?_, ?_, ?_, ?_⟩
          · intro j x hx
            have : ∃ y, w.handles[j]? = some y ∧ y.obj = x.obj ∧ y.dir = x.dir := by
              rcases getElem?_set_cases hx with ⟨rfl, rfl⟩ | ⟨_, hx⟩
              · exact ⟨hd, hk, rfl, rfl⟩
              · exact ⟨x, hx, rfl, rfl⟩
            obtain ⟨y, hy, h1, h2⟩ := this
            obtain ⟨z, hz, hzd⟩ := R.hobj hy
            rw [h1] at hz
            obtain ⟨v, hv, hvd⟩ := hget hz
            exact ⟨v, hv, by rw [hvd, hzd, h2]⟩
          · intro j x hx hxl
            rcases getElem?_set_cases hx with ⟨rfl, rfl⟩ | ⟨_, hx⟩
            · cases hxl
            · exact R.listed hx hxl
          · intro d o ho
            obtain ⟨z, hz, hzd⟩ := R.mapOk ho
            obtain ⟨v, hv, hvd⟩ := hget hz
            exact ⟨v, hv, hvd.trans hzd⟩
          · intro p obp j hp hc
            rcases getElem?_set_cases hp with ⟨rfl, rfl⟩ | ⟨_, hp⟩
            · simp at hc
            · obtain ⟨x, hx, h2, h3⟩ := R.caller hp hc
              refine ⟨x, ?_, h2, h3⟩
              simp only
              rw [List.getElem?_set_ne (fun e => hlive hx h3 e.symm)]; exact hx
          · intro p obp hp
            rcases getElem?_set_cases hp with ⟨rfl, rfl⟩ | ⟨_, hp⟩
            · simp [hcl']
            · exact R.under hp
          · intro p obp hp
            rcases getElem?_set_cases hp with ⟨rfl, rfl⟩ | ⟨hne, hp⟩
            · exact ⟨fun _ => h0, fun _ => hcl'⟩
            · rw [R.closed hp]
              have := hset p
              rw [if_neg (fun e => hne e.symm)] at this
              rw [Nat.add_zero] at this
              rw [← this]
              rfl
          · obtain ⟨own, ho1, ho2⟩ := R.own
            refine ⟨own, ?_, ?_⟩
            · intro f n hn
              simp only [List.length_set]
              simp only at hn
              split at hn
              · simp only at hn
                split at hn
                · cases hn
                · exact ho1 f n hn
              · exact ho1 f n hn
            · intro p obp hp
              simp only [List.length_set]
              rcases getElem?_set_cases hp with ⟨rfl, rfl⟩ | ⟨_, hp⟩
              · have := ho2 _ _ hobw
                exact this
              · exact ho2 _ _ hp
        · rename_i hn0
          injection h with h; injection h with h1 h2; subst h1
          refine R.setHandle (map := w.map) hk (by simp) hb (fun hx _ hxl => R.listed hx hxl) (fun h => h) ?_
          intro o ob ho
          rw [R.closed ho]
          have := hset o
          by_cases hoo : hd.obj = o
          · subst hoo
            have := strong_pos hk (by simp [hl])
            constructor
            · intro; omega
            · intro h; exact absurd h hn0
          · rw [if_neg hoo, Nat.add_zero] at this
            rw [← this]

theorem Reg.run {S : Sys ι} (es : List (WEv ι)) {w w' : World ι} {rs : List WRes} (R : Reg S w)
    (h : w.run S es = some (w', rs)) : Reg S w' := by
  induction es generalizing w rs with
  | nil => simp only [World.run, Option.some.injEq, Prod.mk.injEq] at h; obtain ⟨rfl, _⟩ := h; exact R
  | cons e es ih =>
    unfold World.run at h
    split at h
    · cases h
    · rename_i w1 r hst
      split at h
      · cases h
      · rename_i w2 rs2 hrun
        simp only [Option.some.injEq, Prod.mk.injEq] at h
        obtain ⟨rfl, rfl⟩ := h
        exact ih (R.step hst) hrun

theorem getElem?_lt {α : Type} {l : List α} {i : Nat} {a : α} (h : l[i]? = some a) : i < l.length := by
  rcases Nat.lt_or_ge i l.length with h' | h'
  · exact h'
  · rw [List.getElem?_eq_none h'] at h; cases h

/-- Handles are only ever appended, or move from one state to the next. -/
theorem handles_step {S : Sys ι} {w w' : World ι} {e : WEv ι} {r : WRes} (h : w.step S e = some (w', r)) {k : Nat} {hd : Handle}
    (hk : w.handles[k]? = some hd) : ∃ hd', w'.handles[k]? = some hd' ∧ hd'.obj = hd.obj ∧ hd'.dir = hd.dir ∧
      (hd'.st = .live → hd.st = .live) := by
  have hset : ∀ (j : Nat) (x : Handle) (st : HState), w.handles[j]? = some x → st ≠ .live →
      ∃ hd', (w.handles.set j { x with st := st })[k]? = some hd' ∧ hd'.obj = hd.obj ∧ hd'.dir = hd.dir ∧ (hd'.st = .live → hd.st = .live) := by
    intro j x st hx hst
    by_cases hjk : k = j
    · subst hjk
      rw [hk] at hx; injection hx with hx; subst hx
      exact ⟨{ hd with st := st }, List.getElem?_set_self (getElem?_lt hk), rfl, rfl, fun h => absurd h hst⟩
    · exact ⟨hd, by rw [List.getElem?_set_ne (fun e => hjk e.symm)]; exact hk, rfl, rfl, id⟩
  have hsame : ∀ x : World ι, x.handles = w.handles → ∃ hd', x.handles[k]? = some hd' ∧ hd'.obj = hd.obj ∧ hd'.dir = hd.dir ∧ (hd'.st = .live → hd.st = .live) :=
    fun x hx => ⟨hd, by rw [hx]; exact hk, rfl, rfl, id⟩
  have happ : ∀ (x : World ι) (y : Handle), x.handles = w.handles ++ [y] →
      ∃ hd', x.handles[k]? = some hd' ∧ hd'.obj = hd.obj ∧ hd'.dir = hd.dir ∧ (hd'.st = .live → hd.st = .live) :=
    fun x y hx => ⟨hd, by rw [hx, List.getElem?_append_left (getElem?_lt hk)]; exact hk, rfl, rfl, id⟩
  have hso : ∀ {v v' : World ι} {o : Nat} {ev : Ev ι} {c : Option Nat} {r : Option (Out Unit)},
      v.stepObj S o ev c = some (v', r) → v'.handles = v.handles := by
    intro v v' o ev c r h
    obtain ⟨ob, s', _, _, rfl⟩ := stepObj_eq h
    rfl
  cases e with
  | lookup dir =>
    simp only [World.step] at h
    split at h
    · injection h with h; injection h with h1 h2; subst h1; exact hsame _ rfl
    · split at h
      · injection h with h; injection h with h1 h2; subst h1; exact happ _ _ rfl
      · injection h with h; injection h with h1 h2; subst h1; exact hsame _ rfl
  | create dir i =>
    simp only [World.step] at h
    split at h
    · injection h with h; injection h with h1 h2; subst h1; exact hsame _ rfl
    · split at h
      · injection h with h; injection h with h1 h2; subst h1; exact happ _ _ rfl
      · split at h
        · injection h with h; injection h with h1 h2; subst h1; exact hsame _ rfl
        · have t2 := (touch_objs w S.page (S.fileOf dir)).2.1
          generalize w.touch S.page (S.fileOf dir) = tw at h t2
          obtain ⟨w1, n⟩ := tw
          simp only at h t2
          split at h
          · injection h with h; injection h with h1 h2; subst h1; exact hsame _ t2
          · split at h
            · injection h with h; injection h with h1 h2; subst h1; exact hsame _ t2
            · injection h with h; injection h with h1 h2; subst h1
              refine happ _ { dir := dir, obj := w1.objs.length } ?_
              simp [t2]
  | call j dir m =>
    simp only [World.step] at h
    split at h
    · cases h
    · split at h
      · cases h
      · rw [Option.map_eq_some_iff] at h
        obtain ⟨⟨w1, r1⟩, h1, h2⟩ := h
        injection h2 with h3 h4; subst h3
        exact hsame _ (hso h1)
  | cont o i =>
    simp only [World.step] at h
    split at h
    · cases h
    · split at h
      · rw [Option.map_eq_some_iff] at h
        obtain ⟨⟨w1, r1⟩, h1, h2⟩ := h
        injection h2 with h3 h4; subst h3
        unfold reopen at h1
        split at h1
        · cases h1
        · rename_i ob _ _ _ s' r' _
          have t2 := (touch_objs w S.page (S.fileOf ob.dir)).2.1
          generalize w.touch S.page (S.fileOf ob.dir) = tw at h1 t2
          obtain ⟨w2, n⟩ := tw
          simp only at h1 t2
          injection h1 with h1; injection h1 with h3 h4; subst h3
          exact hsame _ t2
      · rw [Option.map_eq_some_iff] at h
        obtain ⟨⟨w1, r1⟩, h1, h2⟩ := h
        injection h2 with h3 h4; subst h3
        exact hsame _ (hso h1)
  | io o ord =>
    simp only [World.step] at h
    split at h
    · cases h
    · rw [Option.map_eq_some_iff] at h
      obtain ⟨⟨w1, r1⟩, h1, h2⟩ := h
      injection h2 with h3 h4; subst h3
      exact hsame _ (hso h1)
  | drop1 j =>
    simp only [World.step] at h
    split at h
    · cases h
    · rename_i x hx
      split at h
      · cases h
      · split at h
        · injection h with h; injection h with h1 h2; subst h1; exact hset j x _ hx (by simp)
        · injection h with h; injection h with h1 h2; subst h1; exact hset j x _ hx (by simp)
  | drop2 j =>
    simp only [World.step] at h
    split at h
    · cases h
    · rename_i x hx
      split at h
      · cases h
      · split at h
        · rw [Option.map_eq_some_iff] at h
          obtain ⟨⟨w1, r1⟩, h1, h2⟩ := h
          injection h2 with h3 h4; subst h3
          rw [hso h1]
          exact hset j x _ hx (by simp)
        · injection h with h; injection h with h1 h2; subst h1; exact hset j x _ hx (by simp)

/-- Only the two halves of a drop touch an existing handle. -/
theorem handles_keep {S : Sys ι} {w w' : World ι} {e : WEv ι} {r : WRes} (h : w.step S e = some (w', r)) {k : Nat} {hd : Handle}
    (hk : w.handles[k]? = some hd) (h1 : ∀ j, e ≠ .drop1 j) (h2 : ∀ j, e ≠ .drop2 j) : w'.handles[k]? = some hd := by
  have hso : ∀ {v v' : World ι} {o : Nat} {ev : Ev ι} {c : Option Nat} {r : Option (Out Unit)},
      v.stepObj S o ev c = some (v', r) → v'.handles = v.handles := by
    intro v v' o ev c r h
    obtain ⟨ob, s', _, _, rfl⟩ := stepObj_eq h
    rfl
  have happ : ∀ (x : World ι) (y : Handle), x.handles = w.handles ++ [y] → x.handles[k]? = some hd :=
    fun x y hx => by rw [hx, List.getElem?_append_left (getElem?_lt hk)]; exact hk
  cases e with
  | lookup dir =>
    simp only [World.step] at h
    split at h
    · injection h with h; injection h with h1 h2; subst h1; exact hk
    · split at h
      · injection h with h; injection h with h1 h2; subst h1; exact happ _ _ rfl
      · injection h with h; injection h with h1 h2; subst h1; exact hk
  | create dir i =>
    simp only [World.step] at h
    split at h
    · injection h with h; injection h with h1 h2; subst h1; exact hk
    · split at h
      · injection h with h; injection h with h1 h2; subst h1; exact happ _ _ rfl
      · split at h
        · injection h with h; injection h with h1 h2; subst h1; exact hk
        · have t2 := (touch_objs w S.page (S.fileOf dir)).2.1
          generalize w.touch S.page (S.fileOf dir) = tw at h t2
          obtain ⟨w1, n⟩ := tw
          simp only at h t2
          split at h
          · injection h with h; injection h with h1 h2; subst h1; rw [show _ = _ from t2]; exact hk
          · split at h
            · injection h with h; injection h with h1 h2; subst h1; rw [show _ = _ from t2]; exact hk
            · injection h with h; injection h with h1 h2; subst h1
              refine happ _ { dir := dir, obj := w1.objs.length } ?_
              simp [t2]
  | call j dir m =>
    simp only [World.step] at h
    split at h
    · cases h
    · split at h
      · cases h
      · rw [Option.map_eq_some_iff] at h
        obtain ⟨⟨w1, r1⟩, h1, h2⟩ := h
        injection h2 with h3 h4; subst h3
        rw [show _ = _ from hso h1]; exact hk
  | cont o i =>
    simp only [World.step] at h
    split at h
    · cases h
    · split at h
      · rw [Option.map_eq_some_iff] at h
        obtain ⟨⟨w1, r1⟩, h1, h2⟩ := h
        injection h2 with h3 h4; subst h3
        unfold reopen at h1
        split at h1
        · cases h1
        · rename_i ob _ _ _ s' r' _
          have t2 := (touch_objs w S.page (S.fileOf ob.dir)).2.1
          generalize w.touch S.page (S.fileOf ob.dir) = tw at h1 t2
          obtain ⟨w2, n⟩ := tw
          simp only at h1 t2
          injection h1 with h1; injection h1 with h3 h4; subst h3
          simp only; rw [t2]; exact hk
      · rw [Option.map_eq_some_iff] at h
        obtain ⟨⟨w1, r1⟩, h1, h2⟩ := h
        injection h2 with h3 h4; subst h3
        rw [show _ = _ from hso h1]; exact hk
  | io o ord =>
    simp only [World.step] at h
    split at h
    · cases h
    · rw [Option.map_eq_some_iff] at h
      obtain ⟨⟨w1, r1⟩, h1, h2⟩ := h
      injection h2 with h3 h4; subst h3
      rw [show _ = _ from hso h1]; exact hk
  | drop1 j => exact absurd rfl (h1 j)
  | drop2 j => exact absurd rfl (h2 j)

theorem handles_run {S : Sys ι} (es : List (WEv ι)) {w w' : World ι} {rs : List WRes} (h : w.run S es = some (w', rs))
    {k : Nat} {hd : Handle} (hk : w.handles[k]? = some hd) :
    ∃ hd', w'.handles[k]? = some hd' ∧ hd'.obj = hd.obj ∧ hd'.dir = hd.dir ∧ (hd'.st = .live → hd.st = .live) := by
  induction es generalizing w rs hd with
  | nil => simp only [World.run, Option.some.injEq, Prod.mk.injEq] at h; obtain ⟨rfl, _⟩ := h; exact ⟨hd, hk, rfl, rfl, id⟩
  | cons e es ih =>
    unfold World.run at h
    split at h
    · cases h
    · rename_i w1 r hst
      split at h
      · cases h
      · rename_i w2 rs2 hrun
        simp only [Option.some.injEq, Prod.mk.injEq] at h
        obtain ⟨rfl, rfl⟩ := h
        obtain ⟨x, h1, h2, h3, h4⟩ := handles_step hst hk
        obtain ⟨y, h5, h6, h7, h8⟩ := ih hrun h1
        exact ⟨y, h5, h6.trans h2, h7.trans h3, fun h => h4 (h8 h)⟩


/-- Which store an event of the process works on, and with which event of that store. -/
inductive Acts (S : Sys ι) (w : World ι) : WEv ι → Nat → Ev ι → Prop
  | call {h dir m hd} (hh : w.handles[h]? = some hd) (hl : hd.st = .live) (hd' : hd.dir = dir) :
      Acts S w (.call h dir m) hd.obj (evOf m)
  | cont {o i ob} (hob : w.objs[o]? = some ob) (hp : ob.inst.phase ≠ .clrOpen) : Acts S w (.cont o i) o (.api i)
  | io {o ord} : Acts S w (.io o ord) o (.io ord)
  | drop {h hd} (hh : w.handles[h]? = some hd) (hl : hd.st = .unlisted)
      (h0 : World.strong { w with handles := w.handles.set h { hd with st := .gone } } hd.obj = 0) :
      Acts S w (.drop2 h) hd.obj .drop

/-- What an event does to the stores and the files. -/
inductive Moves (S : Sys ι) (w w' : World ι) : WEv ι → WRes → Prop
  /-- nothing -/
  | quiet {e r} (ho : w'.objs = w.objs) (hn : w'.names = w.names) (hi : w'.inodes = w.inodes)
      (he : ∀ h d m, e ≠ .call h d m) (hr : ∀ x, r ≠ .ret x) : Moves S w w' e r
  /-- an open that panicked -/
  | touched {dir i} (hu : w.upgrade dir = none)
      (hc : S.keyOk i = false ∨
        Inst.openAt S.codecs i S.page ((w.touch S.page (S.fileOf dir)).1.content (w.touch S.page (S.fileOf dir)).2) = none)
      (ho : w'.objs = w.objs)
      (hn : w'.names = (w.touch S.page (S.fileOf dir)).1.names)
      (hi : w'.inodes = (w.touch S.page (S.fileOf dir)).1.inodes) : Moves S w w' (.create dir i) .panic
  /-- an open -/
  | opened {dir i s} (hu : w.upgrade dir = none)
      (hs : Inst.openAt S.codecs i S.page ((w.touch S.page (S.fileOf dir)).1.content (w.touch S.page (S.fileOf dir)).2) = some s)
      (ho : w'.objs = w.objs ++ [{ inst := s, dir := dir, inode := (w.touch S.page (S.fileOf dir)).2 }])
      (hn : w'.names = (w.touch S.page (S.fileOf dir)).1.names)
      (hi : w'.inodes = (w.touch S.page (S.fileOf dir)).1.inodes) : Moves S w w' (.create dir i) (.handle w.handles.length)
  /-- a step of one store -/
  | stepped {e o ev ob s' c r} (ha : Acts S w e o ev) (hob : w.objs[o]? = some ob)
      (hst : Inst.step S.codecs (ob.inst.withFile (w.content ob.inode)) ev = some (s', r))
      (ho : w'.objs = w.objs.set o { ob with inst := s', caller := c })
      (hn : w'.names = if ob.inst.lp.cb.removed = false ∧ s'.lp.cb.removed = true then
            fun f => if f = S.fileOf ob.dir then none else w.names f
          else w.names)
      (hi : w'.inodes = w.inodes.set ob.inode s'.lp.cb.ws.file) : Moves S w w' e (retOf r)
  /-- the end of a `clear_data` -/
  | reopened {o i ob s' r} (hob : w.objs[o]? = some ob) (hp : ob.inst.phase = .clrOpen)
      (hst : (ob.inst.atName (w.fileAt (S.fileOf ob.dir))).reopenStep S i = some (s', r))
      (ho : w'.objs = w.objs.set o { ob with inst := s', inode := (w.touch S.page (S.fileOf ob.dir)).2, caller := none })
      (hn : w'.names = (w.touch S.page (S.fileOf ob.dir)).1.names)
      (hi : w'.inodes = (w.touch S.page (S.fileOf ob.dir)).1.inodes) : Moves S w w' (.cont o i) (retOf r)

theorem step_moves {S : Sys ι} {w w' : World ι} {e : WEv ι} {r : WRes} (h : w.step S e = some (w', r)) : Moves S w w' e r := by
  cases e with
  | lookup dir =>
    simp only [World.step] at h
    split at h
    · injection h with h; injection h with h1 h2; subst h1; subst h2; exact .quiet rfl rfl rfl (by simp) (by simp)
    · split at h
      · injection h with h; injection h with h1 h2; subst h1; subst h2; exact .quiet rfl rfl rfl (by simp) (by simp)
      · injection h with h; injection h with h1 h2; subst h1; subst h2; exact .quiet rfl rfl rfl (by simp) (by simp)
  | create dir i =>
    simp only [World.step] at h
    split at h
    · injection h with h; injection h with h1 h2; subst h1; subst h2; exact .quiet rfl rfl rfl (by simp) (by simp)
    · split at h
      · injection h with h; injection h with h1 h2; subst h1; subst h2; exact .quiet rfl rfl rfl (by simp) (by simp)
      · rename_i hu
        split at h
        · injection h with h; injection h with h1 h2; subst h1; subst h2; exact .quiet rfl rfl rfl (by simp) (by simp)
        · obtain ⟨t1, t2, _, _⟩ := touch_objs w S.page (S.fileOf dir)
          split at h
          · rename_i hk; injection h with h; injection h with h1 h2; subst h1; subst h2; exact .touched hu (.inl hk) t1 rfl rfl
          · split at h
            · rename_i hk; injection h with h; injection h with h1 h2; subst h1; subst h2; exact .touched hu (.inr hk) t1 rfl rfl
            · rename_i s hs
              injection h with h; injection h with h1 h2; subst h1; subst h2
              rw [show (w.touch S.page (S.fileOf dir)).1.handles.length = w.handles.length by rw [t2]]
              refine .opened hu hs ?_ rfl rfl
              simp [t1]
  | call k dir m =>
    simp only [World.step] at h
    split at h
    · cases h
    · rename_i hd hk
      split at h
      · cases h
      · rename_i hg
        have hl : hd.st = .live := Decidable.byContradiction fun hne => hg (.inl hne)
        have hdir : hd.dir = dir := Decidable.byContradiction fun hne => hg (.inr (.inl hne))
        rw [Option.map_eq_some_iff] at h
        obtain ⟨⟨w1, r1⟩, hso, hret⟩ := h
        injection hret with h1 h2; subst h1; subst h2
        obtain ⟨ob, s', hob, hst, hw⟩ := stepObj_eq hso
        exact .stepped (.call hk hl hdir) hob hst (by rw [hw]) (by rw [hw]) (by rw [hw])
  | cont o i =>
    simp only [World.step] at h
    split at h
    · cases h
    · rename_i ob hob
      split at h
      · rename_i hp
        rw [Option.map_eq_some_iff] at h
        obtain ⟨⟨w1, r1⟩, hso, hret⟩ := h
        injection hret with h1 h2; subst h1; subst h2
        unfold reopen at hso
        split at hso
        · cases hso
        · rename_i s' r' hst
          have t1 := (touch_objs w S.page (S.fileOf ob.dir)).1
          generalize htw : w.touch S.page (S.fileOf ob.dir) = tw at hso t1
          obtain ⟨w2, n⟩ := tw
          simp only at hso t1
          injection hso with hso; injection hso with h3 h4; subst h4
          refine .reopened hob hp hst ?_ ?_ ?_
          · rw [← h3, htw]; simp only [t1]
          · rw [← h3, htw]
          · rw [← h3, htw]
      · rename_i hp
        rw [Option.map_eq_some_iff] at h
        obtain ⟨⟨w1, r1⟩, hso, hret⟩ := h
        injection hret with h1 h2; subst h1; subst h2
        obtain ⟨ob, s', hob', hst, hw⟩ := stepObj_eq hso
        exact .stepped (.cont hob hp) hob' hst (by rw [hw]) (by rw [hw]) (by rw [hw])
  | io o ord =>
    simp only [World.step] at h
    split at h
    · cases h
    · rw [Option.map_eq_some_iff] at h
      obtain ⟨⟨w1, r1⟩, hso, hret⟩ := h
      injection hret with h1 h2; subst h1; subst h2
      obtain ⟨ob, s', hob', hst, hw⟩ := stepObj_eq hso
      exact .stepped .io hob' hst (by rw [hw]) (by rw [hw]) (by rw [hw])
  | drop1 k =>
    simp only [World.step] at h
    split at h
    · cases h
    · split at h
      · cases h
      · split at h
        · injection h with h; injection h with h1 h2; subst h1; subst h2; exact .quiet rfl rfl rfl (by simp) (by simp)
        · injection h with h; injection h with h1 h2; subst h1; subst h2; exact .quiet rfl rfl rfl (by simp) (by simp)
  | drop2 k =>
    simp only [World.step] at h
    split at h
    · cases h
    · rename_i hd hk
      split at h
      · cases h
      · rename_i hg
        have hl : hd.st = .unlisted := Decidable.byContradiction fun hne => hg hne
        split at h
        · rename_i h0
          rw [Option.map_eq_some_iff] at h
          obtain ⟨⟨w1, r1⟩, hso, hret⟩ := h
          injection hret with h1 h2; subst h1; subst h2
          obtain ⟨ob, s', hob', hst, hw⟩ := stepObj_eq hso
          exact .stepped (.drop hk hl h0) hob' hst (by rw [hw]) (by rw [hw]) (by rw [hw])
        · injection h with h; injection h with h1 h2; subst h1; subst h2; exact .quiet rfl rfl rfl (by simp) (by simp)

end World
end Mmkv
