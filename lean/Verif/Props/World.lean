import Verif.Lemmas.World
import Verif.Props.Memory
/-!
# Several handles and directories in one process: C27, C28, C31
-/

namespace Mmkv
open Spec World
variable {ι : Type}

/-- A file system in which different names lead to different files. -/
structure GoodNames (names : Nat → Option Nat) (inodes : List Bytes) : Prop where
  exist : ∀ f n, names f = some n → n < inodes.length
  inj : ∀ f g n, names f = some n → names g = some n → f = g

theorem GoodNames.none : GoodNames (fun _ => Option.none) [] := ⟨by simp, by simp⟩

theorem reg_reachable {S : Sys ι} {names : Nat → Option Nat} {inodes : List Bytes} (hg : GoodNames names inodes)
    {es : List (WEv ι)} {w : World ι} {rs : List WRes} (h : World.run S (start names inodes) es = some (w, rs)) :
    Reg S w := (Reg.start S hg.exist hg.inj).run es h

/-! ### C27: handles on the same directory share one store -/

/-- **C27.** In every reachable state of the process, whatever the interleaving of `new` and `drop` in any number of
threads, two handles in use that were made with the same string point to the very same store (and so `get` through
either returns the same), and so does a look-up now. -/
theorem C27_shared {S : Sys ι} {names : Nat → Option Nat} {inodes : List Bytes} (hg : GoodNames names inodes)
    {es : List (WEv ι)} {w : World ι} {rs : List WRes} (h : World.run S (start names inodes) es = some (w, rs))
    {h1 h2 : Nat} {d1 d2 : Handle} (hh1 : w.handles[h1]? = some d1) (hh2 : w.handles[h2]? = some d2)
    (hl1 : d1.st = .live) (hl2 : d2.st = .live) (hd : d1.dir = d2.dir) :
    d1.obj = d2.obj ∧ w.store? h1 = w.store? h2 ∧ (w.store? h1).isSome ∧ w.upgrade d1.dir = some d1.obj := by
  have R := reg_reachable hg h
  have h3 := R.listed hh1 hl1
  have h4 := R.listed hh2 hl2
  rw [hd, h4] at h3
  injection h3 with h3
  obtain ⟨ob, hob, _⟩ := R.hobj hh1
  have hs := strong_pos hh1 (by simp [hl1])
  refine ⟨h3.symm, ?_, ?_, ?_⟩
  · simp only [store?, hh1, hh2, hl1, hl2, if_true, h3]
  · simp [store?, hh1, hl1, hob]
  · unfold upgrade
    rw [hd, h4, h3]
    simp only
    rw [if_neg (by omega)]

/-- An event is a mutating call through a handle made with this string. -/
def WEv.callsOn (dir : String) : WEv ι → Bool
  | .call _ d _ => d == dir
  | _ => false

/-- The store holds this entry, and the call under way (if any) is a put or delete past its change of the map. -/
structure HasEntry (w : World ι) (h o : Nat) (dir k : String) (e : Entry) : Prop where
  handle : ∃ hd, w.handles[h]? = some hd ∧ hd.obj = o ∧ hd.dir = dir
  obj : ∃ ob, w.objs[o]? = some ob ∧ ob.inst.kv.get k = some (Buffer.ofRaw k e.token e.bytes) ∧ ob.inst.valid = true ∧
    ob.inst.poisoned = false ∧ (ob.inst.phase = .idle ∨ ob.inst.phase = .send ∨ ∃ j, ob.inst.phase = .push j)

theorem store_live {w : World ι} {h : Nat} {s : Inst ι} (hs : w.store? h = some s) :
    ∃ hd ob, w.handles[h]? = some hd ∧ hd.st = .live ∧ w.objs[hd.obj]? = some ob ∧ ob.inst = s := by
  unfold store? at hs
  split at hs
  · cases hs
  · rename_i hd hh
    split at hs
    · rename_i hl
      rw [Option.map_eq_some_iff] at hs
      obtain ⟨ob, h1, h2⟩ := hs
      exact ⟨hd, ob, hh, hl, h1, h2⟩
    · cases hs

theorem store_eq {w : World ι} {h : Nat} {hd : Handle} {ob : Obj ι} (hh : w.handles[h]? = some hd) (hl : hd.st = .live)
    (ho : w.objs[hd.obj]? = some ob) : w.store? h = some ob.inst := by
  simp [store?, hh, hl, ho]

theorem hasEntry_step {S : Sys ι} {w w' : World ι} {ev : WEv ι} {r : WRes} {h o : Nat} {dir k : String} {e : Entry}
    (R : Reg S w) (he : HasEntry w h o dir k e) (hst : w.step S ev = some (w', r)) (hno : ev.callsOn dir = false)
    {hd' : Handle} (hh' : w'.handles[h]? = some hd') (hl' : hd'.st = .live) : HasEntry w' h o dir k e := by
  obtain ⟨⟨hd, hh, ho, hdir⟩, ob, hob, hkv, hv, hp, hph⟩ := he
  obtain ⟨hd1, h1, h2, h3, h4⟩ := handles_step hst hh
  rw [h1] at hh'; injection hh' with hh'; subst hh'
  have hl := h4 hl'
  refine ⟨⟨hd1, h1, h2.trans ho, h3.trans hdir⟩, ?_⟩
  have hlt := getElem?_lt hob
  cases step_moves hst with
  | quiet ho' _ _ _ _ => exact ⟨ob, by rw [ho']; exact hob, hkv, hv, hp, hph⟩
  | touched _ _ ho' _ _ => exact ⟨ob, by rw [ho']; exact hob, hkv, hv, hp, hph⟩
  | opened _ _ ho' _ _ => exact ⟨ob, by rw [ho', List.getElem?_append_left hlt]; exact hob, hkv, hv, hp, hph⟩
  | @reopened o' i ob' s' r' hob' hp' _ ho' _ _ =>
    have hne : o' ≠ o := by
      rintro rfl
      rw [hob] at hob'; injection hob' with hob'; subst hob'
      rw [hp'] at hph
      rcases hph with h | h | ⟨j, h⟩ <;> cases h
    exact ⟨ob, by rw [ho', List.getElem?_set_ne hne]; exact hob, hkv, hv, hp, hph⟩
  | @stepped _ o' ev' ob' s' c r' ha hob' hst' ho' _ _ =>
    by_cases hne : o' = o
    · subst hne
      rw [hob] at hob'; injection hob' with hob'; subst hob'
      refine ⟨{ ob with inst := s', caller := c }, by rw [ho', List.getElem?_set_self hlt], ?_⟩
      cases ha with
      | @call k' d m x hx hxl hxd =>
        exfalso
        obtain ⟨b1, g1, g2⟩ := R.hobj hx
        obtain ⟨b2, g3, g4⟩ := R.hobj hh
        rw [hob] at g1; injection g1 with g1; subst g1
        rw [ho, hob] at g3; injection g3 with g3; subst g3
        simp only [WEv.callsOn, beq_eq_false_iff_ne] at hno
        exact hno (by rw [← hxd, ← g2, g4, hdir])
      | @cont _ i ob'' _ hnp =>
        rcases hph with hq | hq | ⟨j, hq⟩
        · simp only [Inst.step, Inst.withFile_phase, hq] at hst'; cases hst'
        · simp only [Inst.step, Inst.withFile_phase, hq] at hst'
          injection hst' with hst'; injection hst' with e1 e2; subst e1
          exact ⟨hkv, hv, hp, .inl rfl⟩
        · simp only [Inst.step, Inst.withFile_phase, hq] at hst'
          injection hst' with hst'; injection hst' with e1 e2; subst e1
          exact ⟨hkv, hv, hp, .inr (.inl rfl)⟩
      | io =>
        simp only [Inst.step] at hst'
        split at hst'
        · cases hst'
        · injection hst' with hst'; injection hst' with e1 e2; subst e1
          exact ⟨hkv, hv, hp, hph⟩
      | @drop k' x hx hxl h0 =>
        exfalso
        have hkk : k' ≠ h := by
          rintro rfl
          rw [hh] at hx; injection hx with hx; subst hx; rw [hl] at hxl; cases hxl
        have : (w.handles.set k' { x with st := .gone })[h]? = some hd := by
          rw [List.getElem?_set_ne hkk]; exact hh
        have := strong_pos (w := { w with handles := w.handles.set k' { x with st := .gone } }) this (by simp [hl])
        rw [ho] at this
        omega
    · exact ⟨ob, by rw [ho', List.getElem?_set_ne hne]; exact hob, hkv, hv, hp, hph⟩

theorem hasEntry_run {S : Sys ι} (es : List (WEv ι)) {w w' : World ι} {rs : List WRes} {h o : Nat} {dir k : String} {e : Entry}
    (R : Reg S w) (he : HasEntry w h o dir k e) (hrun : w.run S es = some (w', rs)) (hno : ∀ x ∈ es, x.callsOn dir = false)
    {hd' : Handle} (hh' : w'.handles[h]? = some hd') (hl' : hd'.st = .live) : HasEntry w' h o dir k e := by
  induction es generalizing w rs with
  | nil => simp only [World.run, Option.some.injEq, Prod.mk.injEq] at hrun; obtain ⟨rfl, _⟩ := hrun; exact he
  | cons x es ih =>
    unfold World.run at hrun
    split at hrun
    · cases hrun
    · rename_i w1 r hst
      split at hrun
      · cases hrun
      · rename_i w2 rs2 hrun2
        simp only [Option.some.injEq, Prod.mk.injEq] at hrun
        obtain ⟨rfl, rfl⟩ := hrun
        obtain ⟨hd, hh, _, _⟩ := he.handle
        obtain ⟨hd1, h1, _, _, _⟩ := handles_step hst hh
        obtain ⟨hd2, h2, _, _, h3⟩ := handles_run es hrun2 h1
        rw [hh'] at h2; injection h2 with h2; subst h2
        exact ih (R.step hst) (hasEntry_step R he hst (hno x List.mem_cons_self) h1 (h3 hl')) hrun2
          (fun y hy => hno y (List.mem_cons_of_mem _ hy))

/-- **C27**, visibility.  A put through one handle is seen by a get through any handle of the same directory string,
whatever else happens in the process in between (opening, closing and using other directories, opening and closing other
handles of this one, background work) as long as nothing else is put, deleted or cleared in this directory.  The put
need not have returned: `hidle` only says that no call holds the lock when the get runs. -/
theorem C27_put_visible {α : Type} {S : Sys ι} {names : Nat → Option Nat} {inodes : List Bytes} (hg : GoodNames names inodes)
    {es1 es2 : List (WEv ι)} {w w1 w2 : World ι} {rs1 rs2 : List WRes} {h1 h2 : Nat} {dir k : String} {e : Entry}
    (hrun1 : World.run S (start names inodes) es1 = some (w, rs1))
    (hput : w.step S (.call h1 dir (.put k e)) = some (w1, .quiet))
    (hrun2 : World.run S w1 es2 = some (w2, rs2)) (hno : ∀ x ∈ es2, x.callsOn dir = false)
    {s1 s2 : Inst ι} {hd2 : Handle} (hs1 : w2.store? h1 = some s1) (hs2 : w2.store? h2 = some s2)
    (hh2 : w2.handles[h2]? = some hd2) (hd : hd2.dir = dir) (hidle : s2.phase = .idle)
    (token : BitVec 32) (f : Bytes → Out α) :
    s2.getAs k token f = if token = e.token then f e.bytes else .err .typeMissMatch := by
  have R := reg_reachable hg hrun1
  have R1 := R.step hput
  have R2 := R1.run es2 hrun2
  -- the put took effect on the store of `h1`
  have hput0 := hput
  simp only [World.step] at hput
  split at hput
  · cases hput
  rename_i hd1 hk1
  split at hput
  · cases hput
  rename_i hgd
  have hl1 : hd1.st = .live := Decidable.byContradiction fun hne => hgd (.inl hne)
  have hdir1 : hd1.dir = dir := Decidable.byContradiction fun hne => hgd (.inr (.inl hne))
  rw [Option.map_eq_some_iff] at hput
  obtain ⟨⟨w1', r1⟩, hso, hret⟩ := hput
  injection hret with g1 g2; subst g1
  have hr1 : r1 = none := by
    cases r1 with
    | none => rfl
    | some x => cases g2
  subst hr1
  obtain ⟨ob, s', hob, hst, rfl⟩ := stepObj_eq hso
  have htok : tokenOk e.token = true ∧ ob.inst.phase = .idle ∧ ob.inst.poisoned = false ∧ ob.inst.valid = true ∧
      s' = { ob.inst.withFile (w.content ob.inode) with
        kv := ob.inst.kv.insert k (Buffer.ofRaw k e.token e.bytes)
        phase := .push (.write (Buffer.ofRaw k e.token e.bytes) (ob.inst.kv.get k).isSome) } := by
    simp only [evOf, Inst.step] at hst
    split at hst
    · cases hst
    · rename_i hc
      split at hst
      · injection hst with hst; injection hst with q1 q2; cases q2
      · rename_i hpo
        split at hst
        · injection hst with hst; injection hst with q1 q2; cases q2
        · rename_i hva
          injection hst with hst; injection hst with q1 q2
          refine ⟨?_, Decidable.byContradiction fun hne => hc (.inl hne), ?_, ?_, ?_⟩
          · cases ht : tokenOk e.token with
            | true => rfl
            | false => exact absurd (.inr ht) hc
          · cases hb : ob.inst.poisoned with
            | false => rfl
            | true => exact absurd hb hpo
          · cases hb : ob.inst.valid with
            | true => rfl
            | false => exact absurd hb hva
          · rw [← q1]; rfl
  obtain ⟨htk, _, hpo, hva, hs'⟩ := htok
  have hlt := getElem?_lt hob
  have hent : HasEntry ({ w with
        objs := w.objs.set hd1.obj { ob with inst := s', caller := if s'.phase = .idle then none else some h1 }
        inodes := w.inodes.set ob.inode s'.lp.cb.ws.file
        names := if ob.inst.lp.cb.removed = false ∧ s'.lp.cb.removed = true then
            fun f => if f = S.fileOf ob.dir then none else w.names f
          else w.names } : World ι) h1 hd1.obj dir k e := by
    refine ⟨⟨hd1, hk1, rfl, hdir1⟩, _, List.getElem?_set_self hlt, ?_, ?_, ?_, ?_⟩
    · simp only [hs', KvMap.get_insert]; simp
    · simp only [hs']; exact hva
    · simp only [hs']; exact hpo
    · simp only [hs']; exact .inr (.inr ⟨_, rfl⟩)
  obtain ⟨x1, b1, hx1, hxl1, hb1, rfl⟩ := store_live hs1
  obtain ⟨x2, b2, hx2, hxl2, hb2, rfl⟩ := store_live hs2
  rw [hh2] at hx2; injection hx2 with hx2; subst hx2
  obtain ⟨⟨y, hy, hyo, hyd⟩, c, hc, hkv, hv, hp, _⟩ := hasEntry_run es2 R1 hent hrun2 hno hx1 hxl1
  rw [hx1] at hy; injection hy with hy; subst hy
  have q1 := R2.listed hx1 hxl1
  have q2 := R2.listed hh2 hxl2
  rw [hyd] at q1
  rw [hd, q1] at q2
  injection q2 with q2
  rw [← q2, hyo, hc] at hb2
  injection hb2 with hb2
  subst hb2
  have hnd : (Buffer.ofRaw k e.token e.bytes).isDeleting = false := by
    have := tokenOk_ne_deleted htk
    simp [Buffer.isDeleting, Buffer.ofRaw, this]
  simp only [Inst.getAs, hp, hv, hkv, Buffer.parseAs, Buffer.checkType, hnd]
  by_cases ht : token = e.token
  · simp [ht, Buffer.ofRaw]
  · simp [ht, Buffer.ofRaw]

/-! ### C28: different directories are independent -/

/-- The data file an event is about. -/
def WEv.file? (S : Sys ι) (w : World ι) : WEv ι → Option Nat
  | .lookup dir => some (S.fileOf dir)
  | .create dir _ => some (S.fileOf dir)
  | .call _ dir _ => some (S.fileOf dir)
  | .cont o _ => (w.objs[o]?).map fun ob => S.fileOf ob.dir
  | .io o _ => (w.objs[o]?).map fun ob => S.fileOf ob.dir
  | .drop1 h => (w.handles[h]?).map fun hd => S.fileOf hd.dir
  | .drop2 h => (w.handles[h]?).map fun hd => S.fileOf hd.dir

/-- Nothing about data file `g` differs between two states: the file itself, the handles and stores on it, and the
(possibly unlinked) files these stores have mapped. -/
structure SameFor (S : Sys ι) (g : Nat) (w w' : World ι) : Prop where
  file : w'.fileAt g = w.fileAt g
  names : w'.names g = w.names g
  handles : ∀ {h : Nat} {hd : Handle}, w.handles[h]? = some hd → S.fileOf hd.dir = g → w'.handles[h]? = some hd
  objs : ∀ {o : Nat} {ob : Obj ι}, w.objs[o]? = some ob → S.fileOf ob.dir = g →
    w'.objs[o]? = some ob ∧ w'.content ob.inode = w.content ob.inode
  back : ∀ {o : Nat} {ob : Obj ι}, w'.objs[o]? = some ob → S.fileOf ob.dir = g → w.objs[o]? = some ob

theorem SameFor.refl (S : Sys ι) (g : Nat) (w : World ι) : SameFor S g w w :=
  ⟨rfl, rfl, fun h _ => h, fun h _ => ⟨h, rfl⟩, fun h _ => h⟩

theorem SameFor.trans {S : Sys ι} {g : Nat} {w w' w'' : World ι} (h : SameFor S g w w') (h' : SameFor S g w' w'') : SameFor S g w w'' := by
  refine ⟨h'.file.trans h.file, h'.names.trans h.names, fun hh hg => h'.handles (h.handles hh hg) hg, fun ho hg => ?_,
    fun ho hg => h.back (h'.back ho hg) hg⟩
  obtain ⟨h1, h2⟩ := h.objs ho hg
  obtain ⟨h3, h4⟩ := h'.objs h1 hg
  exact ⟨h3, h4.trans h2⟩

/-- What `get` returns through a handle does not differ either. -/
theorem SameFor.store {S : Sys ι} {g : Nat} {w w' : World ι} (R : Reg S w) (h : SameFor S g w w') {k : Nat} {hd : Handle}
    (hk : w.handles[k]? = some hd) (hg : S.fileOf hd.dir = g) : w'.store? k = w.store? k := by
  obtain ⟨ob, ho, hdir⟩ := R.hobj hk
  obtain ⟨h1, _⟩ := h.objs ho (by rw [hdir]; exact hg)
  simp only [store?, hk, h.handles hk hg, ho, h1]

theorem content_set_ne {w : World ι} {n m : Nat} {b : Bytes} (h : n ≠ m) :
    ((w.inodes.set n b)[m]?).getD [] = w.content m := by
  unfold content; rw [List.getElem?_set_ne h]

/-- A change of one file and one store leaves the rest alone. -/
theorem same_touch {S : Sys ι} {w w' : World ι} {name g : Nat} (R : Reg S w) (hne : name ≠ g)
    (hn : w'.names = (w.touch S.page name).1.names) (hi : w'.inodes = (w.touch S.page name).1.inodes) :
    (w'.fileAt g = w.fileAt g ∧ w'.names g = w.names g) ∧ ∀ {o : Nat} {ob : Obj ι}, w.objs[o]? = some ob → S.fileOf ob.dir = g →
      w'.content ob.inode = w.content ob.inode := by
  obtain ⟨own, h1, h2⟩ := R.own
  unfold touch at hn hi
  cases hnm : w.names name with
  | some n =>
    rw [hnm] at hn hi
    simp only at hn hi
    have hown := (h1 _ _ hnm).1
    refine ⟨⟨?_, by rw [hn]⟩, ?_⟩
    · unfold fileAt
      rw [hn]
      cases hgm : w.names g with
      | none => rfl
      | some m =>
        have : n ≠ m := by
          rintro rfl
          exact hne (hown.symm.trans (h1 _ _ hgm).1)
        simp only [Option.map_some, content, hi]
        rw [content_set_ne this]; rfl
    · intro o ob ho hg
      have : n ≠ ob.inode := by
        intro hh
        have := (h2 _ _ ho).1
        rw [← hh, hown] at this
        exact hne (this.trans hg)
      simp only [content, hi]
      rw [content_set_ne this]; rfl
  | none =>
    rw [hnm] at hn hi
    simp only at hn hi
    refine ⟨⟨?_, by rw [hn]; simp only [if_neg (fun h => hne h.symm : ¬ g = name)]⟩, ?_⟩
    · unfold fileAt
      rw [hn]
      simp only [if_neg (fun h => hne h.symm : ¬ g = name)]
      cases hgm : w.names g with
      | none => rfl
      | some m =>
        have := (h1 _ _ hgm).2
        simp only [Option.map_some, content, hi]
        rw [List.getElem?_append_left this]
    · intro o ob ho _
      have := (h2 _ _ ho).2
      simp only [content, hi]
      rw [List.getElem?_append_left this]

theorem same_step {S : Sys ι} {w w' : World ι} {e : WEv ι} {r : WRes} (R : Reg S w) (h : w.step S e = some (w', r)) {g : Nat}
    (hne : e.file? S w ≠ some g) : SameFor S g w w' := by
  have hhandles : ∀ {k : Nat} {hd : Handle}, w.handles[k]? = some hd → S.fileOf hd.dir = g → w'.handles[k]? = some hd := by
    intro k hd hk hg
    cases e with
    | drop1 j =>
      have hjk : j ≠ k := by
        rintro rfl
        simp [WEv.file?, hk, hg] at hne
      simp only [World.step] at h
      split at h
      · cases h
      · split at h
        · cases h
        · split at h
          · injection h with h; injection h with h1 h2; subst h1
            simp only; rw [List.getElem?_set_ne hjk]; exact hk
          · injection h with h; injection h with h1 h2; subst h1
            simp only; rw [List.getElem?_set_ne hjk]; exact hk
    | drop2 j =>
      have hjk : j ≠ k := by
        rintro rfl
        simp [WEv.file?, hk, hg] at hne
      simp only [World.step] at h
      split at h
      · cases h
      · split at h
        · cases h
        · split at h
          · rw [Option.map_eq_some_iff] at h
            obtain ⟨⟨w1, r1⟩, hso, hret⟩ := h
            injection hret with h1 h2; subst h1
            obtain ⟨ob, s', _, _, rfl⟩ := stepObj_eq hso
            simp only; rw [List.getElem?_set_ne hjk]; exact hk
          · injection h with h; injection h with h1 h2; subst h1
            simp only; rw [List.getElem?_set_ne hjk]; exact hk
    | _ => exact handles_keep h hk (by simp) (by simp)
  obtain ⟨own, o1, o2⟩ := R.own
  cases step_moves h with
  | quiet ho hn hi _ _ =>
    refine ⟨?_, by rw [hn], hhandles, fun ho' _ => ⟨by rw [ho]; exact ho', by unfold content; rw [hi]⟩, fun ho' _ => by rw [ho] at ho'; exact ho'⟩
    unfold fileAt; rw [hn]; unfold content; rw [hi]
  | @touched dir i hu _ ho hn hi =>
    have hd : S.fileOf dir ≠ g := fun hh => hne (by simp [WEv.file?, hh])
    obtain ⟨f1, f2⟩ := same_touch R hd hn hi
    exact ⟨f1.1, f1.2, hhandles, fun ho' hg => ⟨by rw [ho]; exact ho', f2 ho' hg⟩, fun ho' _ => by rw [ho] at ho'; exact ho'⟩
  | @opened dir i s hu hs ho hn hi =>
    have hd : S.fileOf dir ≠ g := fun hh => hne (by simp [WEv.file?, hh])
    obtain ⟨f1, f2⟩ := same_touch R hd hn hi
    refine ⟨f1.1, f1.2, hhandles, fun ho' hg => ⟨by rw [ho, List.getElem?_append_left (getElem?_lt ho')]; exact ho', f2 ho' hg⟩, ?_⟩
    intro p x hx hg
    rw [ho, List.getElem?_append] at hx
    split at hx
    · exact hx
    · rw [List.getElem?_singleton] at hx
      split at hx
      · injection hx with hx; subst hx; exact absurd hg hd
      · cases hx
  | @reopened o i ob s' r' hob hp hst ho hn hi =>
    have hd : S.fileOf ob.dir ≠ g := fun hh => hne (by simp [WEv.file?, hob, hh])
    obtain ⟨f1, f2⟩ := same_touch R hd hn hi
    refine ⟨f1.1, f1.2, hhandles, fun {p x} ho' hg => ⟨?_, f2 ho' hg⟩, ?_⟩
    · have : o ≠ p := by
        rintro rfl
        rw [hob] at ho'; injection ho' with ho'; subst ho'; exact hd hg
      rw [ho, List.getElem?_set_ne this]; exact ho'
    · intro p x hx hg
      rw [ho] at hx
      rcases getElem?_set_cases hx with ⟨rfl, rfl⟩ | ⟨_, hx⟩
      · exact absurd hg hd
      · exact hx
  | @stepped _ o ev ob s' c r' ha hob hst ho hn hi =>
    have hd : S.fileOf ob.dir ≠ g := by
      intro hh
      apply hne
      cases ha with
      | @call k d m x hx hxl hxd =>
        obtain ⟨b, g1, g2⟩ := R.hobj hx
        rw [hob] at g1; injection g1 with g1; subst g1
        simp [WEv.file?, ← hxd, ← g2, hh]
      | cont _ _ => simp [WEv.file?, hob, hh]
      | io => simp [WEv.file?, hob, hh]
      | @drop k x hx hxl h0 =>
        obtain ⟨b, g1, g2⟩ := R.hobj hx
        rw [hob] at g1; injection g1 with g1; subst g1
        simp [WEv.file?, hx, ← g2, hh]
    have howo := (o2 _ _ hob).1
    have hng : w'.names g = w.names g := by
      rw [hn]
      split
      · simp only [if_neg (fun h => hd h.symm : ¬ g = S.fileOf ob.dir)]
      · rfl
    refine ⟨?_, hng, hhandles, ?_, ?_⟩
    · unfold fileAt
      rw [hng]
      cases hgm : w.names g with
      | none => rfl
      | some m =>
        have : ob.inode ≠ m := by
          intro hh
          have := (o1 _ _ hgm).1
          rw [← hh, howo] at this
          exact hd this
        simp only [Option.map_some, content, hi]
        rw [content_set_ne this]; rfl
    · intro p x hx hg
      have hpo : o ≠ p := by
        rintro rfl
        rw [hob] at hx; injection hx with hx; subst hx; exact hd hg
      refine ⟨by rw [ho, List.getElem?_set_ne hpo]; exact hx, ?_⟩
      have : ob.inode ≠ x.inode := by
        intro hh
        have := (o2 _ _ hx).1
        rw [← hh, howo] at this
        exact hd (this.trans hg)
      simp only [content, hi]
      rw [content_set_ne this]; rfl
    · intro p x hx hg
      rw [ho] at hx
      rcases getElem?_set_cases hx with ⟨rfl, rfl⟩ | ⟨_, hx⟩
      · exact absurd hg hd
      · exact hx

/-- No event of the history is about data file `g`. -/
def Avoids (S : Sys ι) (g : Nat) : World ι → List (WEv ι) → Prop
  | _, [] => True
  | w, e :: es => e.file? S w ≠ some g ∧ ∀ w' r, w.step S e = some (w', r) → Avoids S g w' es

theorem same_run {S : Sys ι} {g : Nat} (es : List (WEv ι)) {w w' : World ι} {rs : List WRes} (R : Reg S w)
    (h : w.run S es = some (w', rs)) (ha : Avoids S g w es) : SameFor S g w w' := by
  induction es generalizing w rs with
  | nil => simp only [World.run, Option.some.injEq, Prod.mk.injEq] at h; obtain ⟨rfl, _⟩ := h; exact .refl S g w
  | cons e es ih =>
    unfold World.run at h
    split at h
    · cases h
    · rename_i w1 r hst
      split at h
      · cases h
      · rename_i w2 rs2 hrun
        simp only [Option.some.injEq, Prod.mk.injEq] at h
        obtain ⟨rfl, rfl⟩ := h
        exact (same_step R hst ha.1).trans (ih (R.step hst) hrun (ha.2 _ _ hst))

/-- **C28.** Whatever is done, by any number of threads, to handles and stores of directories whose data file is not
`g` - opening, failing to open, putting, deleting, clearing, closing, background writing, in any interleaving - the
content of data file `g` stays as it is, every handle of it stays what it is, and every possible get through such a
handle returns what it returned before. -/
theorem C28_independent {S : Sys ι} {names : Nat → Option Nat} {inodes : List Bytes} (hg : GoodNames names inodes)
    {es0 es : List (WEv ι)} {w w' : World ι} {rs0 rs : List WRes}
    (hrun0 : World.run S (start names inodes) es0 = some (w, rs0)) (hrun : World.run S w es = some (w', rs))
    {g : Nat} (ha : Avoids S g w es) :
    w'.fileAt g = w.fileAt g ∧ ∀ (h : Nat) (hd : Handle), w.handles[h]? = some hd → S.fileOf hd.dir = g →
      w'.handles[h]? = some hd ∧ w'.store? h = w.store? h := by
  have R := reg_reachable hg hrun0
  have hs := same_run es R hrun ha
  exact ⟨hs.file, fun h hd hh hf => ⟨hs.handles hh hf, hs.store R hh hf⟩⟩

end Mmkv
