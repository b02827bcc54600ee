import Verif.Lemmas.Host
import Verif.Props.Process
/-!
# C73: `clear_data` while another process has the directory open

The removal job unlinks the data file by name (src/core/mmkv_impl.rs:107-110, src/core/writer.rs:104-106).  A process that has the
file open goes on with its mapping of the unlinked file.
-/

namespace Mmkv
open Spec Inst

variable {ι : Type}

/-- An event of process `q`, or its end. -/
def HostEv.of (q : Nat) : HostEv ι → Bool
  | .spawn => false
  | .kill p => p == q
  | .on p _ => p == q

/-- Store `o` of process `q` is on file (inode) `n`, which no name leads to any more, and nobody else has it open. -/
structure Host.Stranded (h : Host ι) (q o n : Nat) : Prop where
  /-- no name leads to the file -/
  unnamed : ∀ f, h.names f ≠ some n
  exists_ : n < h.inodes.length
  /-- the store is on it, and is not clearing anything -/
  here : ∃ w, h.procs[q]? = some (some w) ∧ ∃ ob, w.objs[o]? = some ob ∧ ob.inode = n ∧ NoClear ob.inst
  /-- every store of another process is on another file, or is closed for good -/
  others : ∀ p w, p ≠ q → h.procs[p]? = some (some w) → ∀ ob ∈ w.objs, ob.inode ≠ n ∨ ob.inst.Finished

/-- The events of process `q` in a history concern only its store `o`, and none of them is `clear_data`. -/
def OnlyStore (targets : List Nat) (q o : Nat) : HostEv ι → Prop
  | .on p (.call h _ m) => p = q → m ≠ .clear ∧ targets[h]? = some o
  | .on p (.cont o' _) => p = q → o' = o
  | .on p (.io o' _) => p = q → o' = o
  | .on p (.drop1 h) => p = q → targets[h]? = some o
  | .on p (.drop2 h) => p = q → targets[h]? = some o
  | .on p (.lookup _) => p ≠ q
  | .on p (.create _ _) => p ≠ q
  | _ => True

/-- What the two runs have in common. -/
structure Alike (q o n : Nat) (targets : List Nat) (h1 h2 : Host ι) : Prop where
  names : h2.names = h1.names
  inodes : ∃ x, h2.inodes = h1.inodes.set n x
  len : h2.procs.length = h1.procs.length
  lt : q < h1.procs.length
  procs : ∀ p, p ≠ q → h2.procs[p]? = h1.procs[p]?
  unnamed : ∀ f, h1.names f ≠ some n
  exists_ : n < h1.inodes.length
  here : ∀ w, h1.procs[q]? = some (some w) → w.On o n ∧ w.targets = targets
  others : ∀ p w, p ≠ q → h1.procs[p]? = some (some w) → ∀ ob ∈ w.objs, ob.inode ≠ n ∨ ob.inst.Finished

theorem concerns_of_only {w : World ι} {targets : List Nat} {q o : Nat} {e : WEv ι} (ht : w.targets = targets)
    (h : OnlyStore targets q o (.on q e)) (names : Nat → Option Nat) (inodes : List Bytes) : (w.withFs names inodes).Concerns o e := by
  subst ht
  have key : ∀ (hh : Nat), w.targets[hh]? = some o → ∀ (hd : Handle), w.handles[hh]? = some hd → hd.obj = o := by
    intro hh h1 hd h2
    simp only [World.targets, List.getElem?_map, h2, Option.map_some, Option.some.injEq] at h1
    exact h1
  cases e with
  | lookup => exact absurd rfl h
  | create => exact absurd rfl h
  | call hh d m => exact ⟨(h rfl).1, key hh (h rfl).2⟩
  | cont o' i => exact h rfl
  | io o' ord => exact h rfl
  | drop1 hh => exact key hh (h rfl)
  | drop2 hh => exact key hh (h rfl)

theorem set_set_self (l : List Bytes) (n : Nat) (a b : Bytes) : (l.set n a).set n b = l.set n b := by simp

theorem alike_run {S : Sys ι} {q o n : Nat} {targets : List Nat} : ∀ (es : List (HostEv ι)) {h1 h2 h1' : Host ι} {rs : List (Nat × WRes)},
    Alike q o n targets h1 h2 → (∀ e ∈ es, OnlyStore targets q o e) → Host.run S h1 es = some (h1', rs) →
    ∃ h2', Host.run S h2 (es.filter fun e => !e.of q) = some (h2', rs.filter fun r => r.1 != q) ∧ Alike q o n targets h1' h2' := by
  intro es
  induction es with
  | nil =>
    intro h1 h2 h1' rs h _ hr
    simp only [Host.run, Option.some.injEq, Prod.mk.injEq] at hr
    obtain ⟨rfl, rfl⟩ := hr
    exact ⟨h2, rfl, h⟩
  | cons e es ih =>
    intro h1 h2 h1' rs h ho hr
    simp only [Host.run] at hr
    split at hr
    · cases hr
    rename_i g1 r1 hst
    split at hr
    · cases hr
    rename_i g2 rs2 hrun
    simp only [Option.some.injEq, Prod.mk.injEq] at hr
    obtain ⟨rfl, rfl⟩ := hr
    have ho' : ∀ e ∈ es, OnlyStore targets q o e := fun e he => ho e (List.mem_cons_of_mem _ he)
    -- it is enough to follow one event
    suffices hone : if e.of q = true then Alike q o n targets g1 h2 ∧ (r1.toList.filter fun r => r.1 != q) = []
        else ∃ k2, Host.step S h2 e = some (k2, r1) ∧ Alike q o n targets g1 k2 ∧ (r1.toList.filter fun r => r.1 != q) = r1.toList by
      by_cases hq : e.of q = true
      · rw [if_pos hq] at hone
        obtain ⟨k, hk, hk'⟩ := ih hone.1 ho' hrun
        refine ⟨k, ?_, hk'⟩
        rw [List.filter_cons_of_neg (by simp [hq]), List.filter_append, hone.2]
        exact hk
      · rw [if_neg hq] at hone
        obtain ⟨k2, hk2, ha, hf⟩ := hone
        obtain ⟨k, hk, hk'⟩ := ih ha ho' hrun
        refine ⟨k, ?_, hk'⟩
        rw [List.filter_cons_of_pos (by simp [hq]), List.filter_append, hf]
        simp only [Host.run, hk2, hk]
    cases e with
    | spawn =>
      simp only [Host.step, Option.some.injEq, Prod.mk.injEq] at hst
      obtain ⟨rfl, rfl⟩ := hst
      rw [if_neg (by simp [HostEv.of])]
      refine ⟨_, rfl, ⟨h.names, h.inodes, ?_, ?_, ?_, h.unnamed, h.exists_, ?_, ?_⟩, rfl⟩
      · simp [h.len]
      · simp only [List.length_append, List.length_singleton]; have := h.lt; omega
      · intro p hp
        simp only [List.getElem?_append, h.len, h.procs p hp]
      · intro w hw
        rw [List.getElem?_append_left h.lt] at hw
        exact h.here w hw
      · intro p w hp hw
        rw [List.getElem?_append] at hw
        split at hw
        · exact h.others p w hp hw
        · rw [List.getElem?_singleton] at hw
          split at hw
          · simp only [Option.some.injEq] at hw
            subst hw
            simp [World.start]
          · cases hw
    | kill p =>
      simp only [Host.step] at hst
      split at hst
      · rename_i w hw
        simp only [Option.some.injEq, Prod.mk.injEq] at hst
        obtain ⟨rfl, rfl⟩ := hst
        by_cases hpq : p = q
        · subst hpq
          rw [if_pos (by simp [HostEv.of])]
          refine ⟨⟨h.names, h.inodes, by simp [h.len], by simpa using h.lt, ?_, h.unnamed, h.exists_, ?_, ?_⟩, rfl⟩
          · intro p' hp'
            rw [List.getElem?_set_ne (Ne.symm hp')]
            exact h.procs p' hp'
          · intro w' hw'
            rw [List.getElem?_set_self h.lt] at hw'
            cases hw'
          · intro p' w' hp' hw'
            rw [List.getElem?_set_ne (Ne.symm hp')] at hw'
            exact h.others p' w' hp' hw'
        · rw [if_neg (by simp [HostEv.of, hpq])]
          refine ⟨{ h2 with procs := h2.procs.set p none }, ?_, ⟨h.names, h.inodes, by simp [h.len], by simpa using h.lt, ?_, h.unnamed, h.exists_, ?_, ?_⟩, rfl⟩
          · simp only [Host.step, h.procs p hpq, hw]
          · intro p' hp'
            simp only [List.getElem?_set, h.len, h.procs p' hp']
          · intro w' hw'
            rw [List.getElem?_set_ne hpq] at hw'
            exact h.here w' hw'
          · intro p' w' hp' hw'
            rw [List.getElem?_set] at hw'
            split at hw'
            · split at hw' <;> cases hw'
            · exact h.others p' w' hp' hw'
      · cases hst
    | on p e =>
      simp only [Host.step] at hst
      split at hst
      · rename_i w hw
        split at hst
        · cases hst
        rename_i w' r hws
        simp only [Option.some.injEq, Prod.mk.injEq] at hst
        obtain ⟨rfl, rfl⟩ := hst
        by_cases hpq : p = q
        · subst hpq
          rw [if_pos (by simp [HostEv.of])]
          obtain ⟨hon, htg⟩ := h.here w hw
          have hc := concerns_of_only htg (ho _ List.mem_cons_self) h1.names h1.inodes
          obtain ⟨a, b, c, y, d⟩ := World.own_step (w := w.withFs h1.names h1.inodes) hon hc hws
          obtain ⟨x, hx⟩ := h.inodes
          have c : w'.names = h1.names := c
          have d : w'.inodes = h1.inodes.set n y := d
          refine ⟨⟨by rw [c]; exact h.names, ⟨x, by rw [d, set_set_self]; exact hx⟩, by simp [h.len], by simpa using h.lt, ?_,
            by rw [c]; exact h.unnamed, by rw [d]; simpa using h.exists_, ?_, ?_⟩, by simp⟩
          · intro p' hp'
            rw [List.getElem?_set_ne (Ne.symm hp')]
            exact h.procs p' hp'
          · intro v hv
            rw [List.getElem?_set_self h.lt] at hv
            simp only [Option.some.injEq] at hv
            subst hv
            exact ⟨a, b.trans htg⟩
          · intro p' v hp' hv
            rw [List.getElem?_set_ne (Ne.symm hp')] at hv
            exact h.others p' v hp' hv
        · rw [if_neg (by simp [HostEv.of, hpq])]
          obtain ⟨x, hx⟩ := h.inodes
          have hoff : (w.withFs h1.names h1.inodes).Off n := ⟨h.unnamed, h.exists_, h.others p w hpq hw⟩
          have hpatch := World.step_patch (S := S) x hoff e
          rw [hws] at hpatch
          have hoff' := World.off_step hoff hws
          have hsame : w.withFs h2.names h2.inodes = (w.withFs h1.names h1.inodes).patch n x := by
            simp only [World.withFs, World.patch, h.names, hx]
          refine ⟨⟨h2.procs.set p (some (w'.patch n x).alone), w'.names, w'.inodes.set n x⟩, ?_, ⟨rfl, ⟨x, rfl⟩, by simp [h.len], by simpa using h.lt, ?_,
            hoff'.names, hoff'.lt, ?_, ?_⟩, by simp [hpq]⟩
          · simp only [Host.step, h.procs p hpq, hw]
            rw [hsame, hpatch]
            rfl
          · intro p' hp'
            simp only [List.getElem?_set, h.len, h.procs p' hp']
            rfl
          · intro v hv
            rw [List.getElem?_set_ne hpq] at hv
            exact h.here v hv
          · intro p' v hp' hv
            rw [List.getElem?_set] at hv
            split at hv
            · split at hv
              · simp only [Option.some.injEq] at hv
                subst hv
                exact hoff'.objs
              · cases hv
            · exact h.others p' v hp' hv
      · cases hst

/-- **C73 is false of this program**, in every such execution: once another process has cleared the directory, a process that still
has it open (store `o` on the unlinked file `n`) can put, delete and close as much as it likes - every call may return `Ok` - and it
makes no difference to anything but itself.  Whatever happens on the host (any processes, calls, schedules, kills), the other
processes get the same results, have the same stores, and every data file holds the same bytes, as in the same history without that
process. -/
theorem C73_refuted_writes_lost {S : Sys ι} {h h' : Host ι} {q o n : Nat} (hst : h.Stranded q o n) {w : World ι}
    (hw : h.procs[q]? = some (some w)) {es : List (HostEv ι)} {rs : List (Nat × WRes)} (hrun : Host.run S h es = some (h', rs))
    (honly : ∀ e ∈ es, OnlyStore (w.handles.map (·.obj)) q o e) :
    ∃ h2, Host.run S h (es.filter fun e => !e.of q) = some (h2, rs.filter fun r => r.1 != q) ∧
      (∀ f, h'.fileAt f = h2.fileAt f) ∧ ∀ p, p ≠ q → h'.procs[p]? = h2.procs[p]? := by
  obtain ⟨w0, hw0, ob, hob, hi, hc⟩ := hst.here
  rw [hw] at hw0
  simp only [Option.some.injEq] at hw0
  subst hw0
  have halike : Alike q o n w.targets h h := by
    refine ⟨rfl, ⟨h.inodes[n]'hst.exists_, by simp⟩, rfl, (List.getElem?_eq_some_iff.1 hw).1, fun _ _ => rfl, hst.unnamed, hst.exists_, ?_, hst.others⟩
    intro v hv
    rw [hw] at hv
    simp only [Option.some.injEq] at hv
    subst hv
    exact ⟨⟨ob, hob, hi, hc⟩, rfl⟩
  obtain ⟨h2, h3, h4⟩ := alike_run es halike honly hrun
  refine ⟨h2, h3, ?_, fun p hp => (h4.procs p hp).symm⟩
  intro f
  obtain ⟨x, hx⟩ := h4.inodes
  simp only [Host.fileAt, h4.names, hx]
  cases hf : h'.names f with
  | none => rfl
  | some m =>
    simp only [Option.map_some, Option.some.injEq]
    rw [List.getElem?_set_ne]
    rintro rfl
    exact h4.unnamed f hf

/-- **C73 is false of this program**, for every execution: whatever other processes do - including `clear_data` on the same directory -
a process that does nothing itself goes on showing exactly what it showed. -/
theorem C73_refuted_unseen {S : Sys ι} : ∀ {es : List (HostEv ι)} {h h' : Host ι} {rs : List (Nat × WRes)} {q : Nat},
    q < h.procs.length → Host.run S h es = some (h', rs) → (∀ e ∈ es, e.of q = false) → h'.procs[q]? = h.procs[q]? := by
  intro es
  induction es with
  | nil =>
    intro h h' rs q _ hr _
    simp only [Host.run, Option.some.injEq, Prod.mk.injEq] at hr
    obtain ⟨rfl, _⟩ := hr
    rfl
  | cons e es ih =>
    intro h h' rs q hq hr hno
    simp only [Host.run] at hr
    split at hr
    · cases hr
    rename_i g r hst
    split at hr
    · cases hr
    rename_i g2 rs2 hrun
    simp only [Option.some.injEq, Prod.mk.injEq] at hr
    obtain ⟨rfl, _⟩ := hr
    have hone : g.procs[q]? = h.procs[q]? ∧ q < g.procs.length := by
      have he := hno e List.mem_cons_self
      cases e with
      | spawn =>
        simp only [Host.step, Option.some.injEq, Prod.mk.injEq] at hst
        obtain ⟨rfl, _⟩ := hst
        exact ⟨List.getElem?_append_left hq, by simp only [List.length_append]; omega⟩
      | kill p =>
        simp only [Host.step] at hst
        split at hst
        · simp only [Option.some.injEq, Prod.mk.injEq] at hst
          obtain ⟨rfl, _⟩ := hst
          exact ⟨List.getElem?_set_ne (by simpa [HostEv.of] using he), by simpa using hq⟩
        · cases hst
      | on p e =>
        simp only [Host.step] at hst
        split at hst
        · split at hst
          · cases hst
          simp only [Option.some.injEq, Prod.mk.injEq] at hst
          obtain ⟨rfl, _⟩ := hst
          exact ⟨List.getElem?_set_ne (by simpa [HostEv.of] using he), by simpa using hq⟩
        · cases hst
    rw [ih hone.2 hrun (fun e he => hno e (List.mem_cons_of_mem _ he)), hone.1]

/-- What holds of **C73**: when `clear_data` returns `Ok` in one process, that process is on the file the directory now leads to; if no other
process created that file anew in the meantime, it shows nothing; and a process that opens the directory (with the same key) at that moment
sees exactly what the clearing process sees.  Missing: the processes that had the directory open before. -/
theorem C73_partial {S : Sys ι} (h8 : 8 ≤ S.page) {names : Nat → Option Nat} {inodes : List Bytes} (hg : GoodNames names inodes)
    {es : List (HostEv ι)} {h h' : Host ι} {rs : List (Nat × WRes)} (hrun : Host.run S ⟨[], names, inodes⟩ es = some (h, rs)) {p o : Nat} {i : ι}
    {w : World ι} {ob : Obj ι} (hw : h.procs[p]? = some (some w)) (hob : w.objs[o]? = some ob) (hcl : ob.inst.phase = .clrOpen)
    (hst : Host.step S h (.on p (.cont o i)) = some (h', some (p, .ret (.ok ())))) :
    ∃ w' ob' S' file s, h'.procs[p]? = some (some w') ∧ w'.objs[o]? = some ob' ∧ ob'.inst.Shows S' ∧
      h'.names (S.fileOf ob.dir) = some ob'.inode ∧ h'.fileAt (S.fileOf ob.dir) = some file ∧
      openAt S.codecs ob'.inst.idx S.page file = some s ∧ s.Shows S' ∧ (h.names (S.fileOf ob.dir) = none → S' = Store.empty) := by
  have hsane : h.Sane S := host_sane es ⟨hg.exist, by simp⟩ hrun
  simp only [Host.step, hw] at hst
  split at hst
  · cases hst
  rename_i w' r hws
  simp only [Option.some.injEq, Prod.mk.injEq, true_and] at hst
  obtain ⟨rfl, rfl⟩ := hst
  have hws0 : (w.withFs h.names h.inodes).Sane S := ⟨hsane.names, hsane.objs p w hw⟩
  unfold World.step at hws
  have hob' : (w.withFs h.names h.inodes).objs[o]? = some ob := hob
  simp only [hob'] at hws
  rw [if_pos hcl] at hws
  cases hro : (w.withFs h.names h.inodes).reopen S o ob i with
  | none => rw [hro] at hws; cases hws
  | some q =>
    rw [hro] at hws
    obtain ⟨w1, r1⟩ := q
    simp only [Option.map_some, Option.some.injEq, Prod.mk.injEq] at hws
    obtain ⟨rfl, hr⟩ := hws
    have hr : r1 = some (.ok ()) := by
      cases r1 with
      | none => simp [World.retOf] at hr
      | some x => simp only [World.retOf, WRes.ret.injEq] at hr; rw [hr]
    subst hr
    unfold World.reopen at hro
    split at hro
    · cases hro
    rename_i s' r' hre
    obtain ⟨t1, _, t3, t4⟩ := World.sane_touch hws0 (S.fileOf ob.dir)
    have t5 : ((w.withFs h.names h.inodes).touch S.page (S.fileOf ob.dir)).1.objs = w.objs := by
      unfold World.touch
      split <;> rfl
    generalize (w.withFs h.names h.inodes).touch S.page (S.fileOf ob.dir) = tt at t1 t3 t4 t5 hro
    simp only [Option.some.injEq, Prod.mk.injEq] at hro
    obtain ⟨rfl, rfl⟩ := hro
    have hfx : ob.inst.Fixed S.page := hsane.objs p w hw ob (List.mem_of_getElem? hob)
    generalize hf : (w.withFs h.names h.inodes).fileAt (S.fileOf ob.dir) = f at hre t4
    obtain ⟨j, ho⟩ : ∃ j, openAt S.codecs j S.page (f.getD []) = some s' := by
      unfold Inst.reopenStep at hre
      split at hre
      · simp at hre
      have hph : (ob.inst.atName f).phase = .clrOpen := hcl
      have hdisk : (ob.inst.atName f).disk = f.getD [] := by cases f <;> simp [Inst.atName, Inst.disk]
      obtain ⟨f1, f2, f3⟩ := hfx
      have g1 : (ob.inst.atName f).lp.cb.ws.page = S.page := f1
      have g2 : (ob.inst.atName f).lp.cb.ws.usizeBytes = 8 := f2
      have g3 : (ob.inst.atName f).lp.cb.ws.quota = none := f3
      simp only [Inst.step, hph, hdisk, g1, g2, g3] at hre
      split at hre
      · simp at hre
      · rename_i s1 hos
        (repeat' split at hre) <;> simp only [Option.some.injEq, Prod.mk.injEq, reduceCtorEq, and_false, and_true] at hre <;> (subst hre; exact ⟨_, hos⟩)
    have hidx : s'.idx = j := by
      unfold openAt at ho
      split at ho
      · cases ho
      · injection ho with ho; subst ho; rfl
    have hagain : openAt S.codecs s'.idx S.page (configNew S.page (f.getD [])) = some s' := by
      rw [hidx, ← ho]
      have : configNew S.page (configNew S.page (f.getD [])) = configNew S.page (f.getD []) := by
        unfold configNew
        split
        · rw [if_neg (by simp [zeros]; omega)]
        · rfl
      simp only [openAt, openStore, this]
    have hlt : o < tt.1.objs.length := by
      rw [t5]
      exact (List.getElem?_eq_some_iff.1 hob).1
    refine ⟨_, { ob with inst := s', inode := tt.2, caller := none }, view s'.kv, configNew S.page (f.getD []), s',
      List.getElem?_set_self (List.getElem?_eq_some_iff.1 hw).1, List.getElem?_set_self hlt, shows_of_view ho rfl, t3, ?_, hagain, shows_of_view ho rfl, ?_⟩
    · simp only [Host.fileAt, t3, Option.map_some, Option.some.injEq]
      exact t4
    · intro hno
      have : f = none := by
        rw [← hf]
        simp only [World.fileAt, World.withFs, hno, Option.map_none]
      subst this
      rw [Option.getD_none] at ho
      unfold openAt at ho
      split at ho
      · cases ho
      rename_i oo hoo
      injection ho with ho
      subst ho
      simp only [openStore_nil_kv hoo]
      rfl

/-- A step changes only what the names of directories it knows lead to. -/
theorem host_names_step {S : Sys ι} {f : Nat} (hf : ∀ d, S.fileOf d ≠ f) {h h' : Host ι} {e : HostEv ι} {r : Option (Nat × WRes)}
    (hs : Host.step S h e = some (h', r)) : h'.names f = h.names f := by
  have htouch : ∀ (w : World ι) (d : String), (w.touch S.page (S.fileOf d)).1.names f = w.names f := by
    intro w d
    unfold World.touch
    split
    · rfl
    · exact if_neg (Ne.symm (hf d))
  have hobj : ∀ {w w' : World ι} {o : Nat} {e : Ev ι} {c : Option Nat} {r : Option (Out Unit)},
      w.stepObj S o e c = some (w', r) → w'.names f = w.names f := by
    intro w w' o e c r h
    unfold World.stepObj at h
    (repeat' split at h) <;> simp only [Option.some.injEq, Prod.mk.injEq, reduceCtorEq] at h
    all_goals
      obtain ⟨rfl, _⟩ := h
      first
      | rfl
      | exact if_neg (Ne.symm (hf _))
  have hw : ∀ {w w' : World ι} {e : WEv ι} {r : WRes}, World.step S w e = some (w', r) → w'.names f = w.names f := by
    intro w w' e r h
    cases e with
    | lookup d =>
      simp only [World.step] at h
      (repeat' split at h) <;> (simp only [Option.some.injEq, Prod.mk.injEq, World.addHandle] at h; obtain ⟨rfl, _⟩ := h; rfl)
    | create d i =>
      simp only [World.step] at h
      (repeat' split at h) <;> (simp only [Option.some.injEq, Prod.mk.injEq, World.addHandle] at h; obtain ⟨rfl, _⟩ := h; first | rfl | exact htouch w d)
    | call hh d m =>
      simp only [World.step] at h
      (repeat' split at h) <;> try (cases h; done)
      simp only [Option.map_eq_some_iff] at h
      obtain ⟨⟨v, r'⟩, hv, he⟩ := h
      simp only [Prod.mk.injEq] at he
      obtain ⟨rfl, _⟩ := he
      exact hobj hv
    | cont o i =>
      simp only [World.step] at h
      split at h
      · cases h
      simp only [Option.map_eq_some_iff] at h
      obtain ⟨⟨v, r'⟩, hv, he⟩ := h
      simp only [Prod.mk.injEq] at he
      obtain ⟨rfl, _⟩ := he
      split at hv
      · unfold World.reopen at hv
        split at hv
        · cases hv
        simp only [Option.some.injEq, Prod.mk.injEq] at hv
        obtain ⟨rfl, _⟩ := hv
        exact htouch w _
      · exact hobj hv
    | io o ord =>
      simp only [World.step] at h
      split at h
      · cases h
      simp only [Option.map_eq_some_iff] at h
      obtain ⟨⟨v, r'⟩, hv, he⟩ := h
      simp only [Prod.mk.injEq] at he
      obtain ⟨rfl, _⟩ := he
      exact hobj hv
    | drop1 hh =>
      simp only [World.step] at h
      (repeat' split at h) <;> simp only [Option.some.injEq, Prod.mk.injEq, reduceCtorEq] at h <;> (obtain ⟨rfl, _⟩ := h; rfl)
    | drop2 hh =>
      simp only [World.step] at h
      (repeat' split at h) <;> try (cases h; done)
      · simp only [Option.map_eq_some_iff] at h
        obtain ⟨⟨v, r'⟩, hv, he⟩ := h
        simp only [Prod.mk.injEq] at he
        obtain ⟨rfl, _⟩ := he
        exact (hobj hv :)
      · simp only [Option.some.injEq, Prod.mk.injEq] at h
        obtain ⟨rfl, _⟩ := h
        rfl
  cases e with
  | spawn =>
    simp only [Host.step, Option.some.injEq, Prod.mk.injEq] at hs
    obtain ⟨rfl, _⟩ := hs
    rfl
  | kill p =>
    simp only [Host.step] at hs
    split at hs <;> simp only [Option.some.injEq, Prod.mk.injEq, reduceCtorEq] at hs
    obtain ⟨rfl, _⟩ := hs
    rfl
  | on p e =>
    simp only [Host.step] at hs
    (repeat' split at hs) <;> simp only [Option.some.injEq, Prod.mk.injEq, reduceCtorEq] at hs
    rename_i hst
    obtain ⟨rfl, _⟩ := hs
    exact hw hst

theorem host_names_run {S : Sys ι} {f : Nat} (hf : ∀ d, S.fileOf d ≠ f) : ∀ {es : List (HostEv ι)} {h h' : Host ι} {rs : List (Nat × WRes)},
    Host.run S h es = some (h', rs) → h'.names f = h.names f := by
  intro es
  induction es with
  | nil =>
    intro h h' rs hr
    simp only [Host.run, Option.some.injEq, Prod.mk.injEq] at hr
    rw [hr.1]
  | cons e es ih =>
    intro h h' rs hr
    simp only [Host.run] at hr
    (repeat' split at hr) <;> simp only [Option.some.injEq, Prod.mk.injEq, reduceCtorEq] at hr
    rename_i h1 _ _ _ h2
    obtain ⟨rfl, _⟩ := hr
    rw [ih h2, host_names_step hf h1]

/-- Process 0 opens "a" and puts "k"; process 1 opens "a"; process 0 clears "a", up to the last step of `clear_data`. -/
def clearingUnder : List (HostEv Unit) :=
  [.spawn, .spawn, .on 0 (.create "a" ())] ++ (wput 0 0 "a" "k" 1 ++ wio 0).map (.on 0) ++ [.on 1 (.create "a" ())] ++
    ([.call 0 "a" .clear, .cont 0 (), .cont 0 (), .cont 0 ()] ++ List.replicate 5 (.io 0 id) ++ [.cont 0 ()] : List (WEv Unit)).map (.on 0)

/-- ... and the last step. -/
def clearedUnder : List (HostEv Unit) := clearingUnder ++ [.on 0 (.cont 0 ())]

/-- Then process 1 puts "l", closes cleanly and ends; process 2 opens "a". -/
def writesOn : List (HostEv Unit) :=
  (wput 0 0 "a" "l" 2 ++ wio 0 ++ [.drop1 0, .drop2 0, .io 0 id] : List (WEv Unit)).map (.on 1) ++ [.kill 1, .spawn, .on 2 (.create "a" ())]

/-- What handle 0 of process `p` reads. -/
def hget (h : Host Unit) (p : Nat) (k : String) : Option (Out Int) :=
  (h.proc? p).bind fun w => wget w 0 k

/-- What `Stranded 1 0 0` says, computed. -/
def strandedCheck (h : Host Unit) : Bool :=
  h.names 0 == some 1 && h.names 1 == none && h.names 2 == none && h.inodes.length == 2 && h.procs.length == 2 &&
  (match h.procs[1]? with
   | some (some w) =>
     (match w.objs[0]? with
      | some ob => ob.inode == 0 && ob.inst.valid && !ob.inst.poisoned && (match ob.inst.phase with | .idle => true | _ => false) && ob.inst.lp.buf.isEmpty && ob.inst.lp.queue.isEmpty
      | none => false) && w.handles.map (·.obj) == [0]
   | _ => false) &&
  (match h.procs[0]? with
   | some (some w) => w.objs.all fun ob => ob.inode != 0
   | _ => false)

theorem stranded_of_check {h : Host Unit} (hn : ∀ f, f ≠ 0 → f ≠ 1 → f ≠ 2 → h.names f = none) (hc : strandedCheck h = true) :
    h.Stranded 1 0 0 ∧ ∃ w, h.procs[1]? = some (some w) ∧ w.handles.map (·.obj) = [0] := by
  unfold strandedCheck at hc
  simp only [Bool.and_eq_true, beq_iff_eq] at hc
  obtain ⟨⟨⟨⟨⟨⟨n0, n1⟩, n2⟩, hl⟩, hpl⟩, h1⟩, h0⟩ := hc
  split at h1
  · rename_i w hw
    simp only [Bool.and_eq_true, beq_iff_eq] at h1
    obtain ⟨h1, hh⟩ := h1
    split at h1
    · rename_i ob hob
      simp only [Bool.and_eq_true, beq_iff_eq, Bool.not_eq_true', List.isEmpty_iff] at h1
      obtain ⟨⟨⟨⟨⟨hi, hv⟩, hp⟩, hph⟩, hb⟩, hq⟩ := h1
      have hph : ob.inst.phase = .idle := by
        revert hph
        cases ob.inst.phase <;> simp
      refine ⟨⟨?_, by omega, ⟨w, hw, ob, hob, hi, hv, hp, .inl hph, by simp [Inst.todo, hb, hq, hph, Phase.inflight]⟩, ?_⟩, w, hw, hh⟩
      · intro f
        by_cases e0 : f = 0
        · subst e0; rw [n0]; simp
        by_cases e1 : f = 1
        · subst e1; rw [n1]; simp
        by_cases e2 : f = 2
        · subst e2; rw [n2]; simp
        rw [hn f e0 e1 e2]; simp
      · intro p v hp1 hv ob hob
        have hp0 : p = 0 := by
          have := (List.getElem?_eq_some_iff.1 hv).1
          omega
        subst hp0
        rw [hv] at h0
        simp only [List.all_eq_true, bne_iff_ne] at h0
        exact .inl (h0 ob hob)
    · cases h1
  · cases h1

/-- `C73_refuted_writes_lost` and `C73_refuted_unseen` at work: every call returns `Ok` (the results of the second part are listed); after
`clear_data` in process 0, process 1 still reads "k"; its "l" is stored, closed cleanly, and not there for process 2. -/
example : ∃ h h' rs rs', Host.run twoDirs ⟨[], fun _ => none, []⟩ clearedUnder = some (h, rs) ∧ Host.run twoDirs h writesOn = some (h', rs') ∧
    (rs.getLast?.map (·.2)) = some (.ret (.ok ())) ∧ (rs'.filter fun r => r.2 != .quiet) = [(1, .ret (.ok ())), (2, .handle 0)] ∧
    hget h 0 "k" = some (.err .keyNotFound) ∧ hget h 1 "k" = some (.ok 1) ∧ hget h' 2 "l" = some (.err .keyNotFound) ∧
    h.Stranded 1 0 0 ∧ (∃ w, h.procs[1]? = some (some w) ∧ ∀ e ∈ writesOn, OnlyStore (w.handles.map (·.obj)) 1 0 e) := by
  have hc : (match Host.run twoDirs ⟨[], fun _ => none, []⟩ clearedUnder with
      | some (h, rs) => strandedCheck h && rs.getLast?.map (·.2) == some (.ret (.ok ())) && hget h 0 "k" == some (.err .keyNotFound) &&
        hget h 1 "k" == some (.ok 1) &&
        (match Host.run twoDirs h writesOn with
         | some (h', rs') => (rs'.filter fun r => r.2 != .quiet) == [(1, .ret (.ok ())), (2, .handle 0)] && hget h' 2 "l" == some (.err .keyNotFound)
         | none => false)
      | none => false) = true := by
    decide +kernel
  split at hc
  · rename_i h rs hr
    simp only [Bool.and_eq_true, beq_iff_eq] at hc
    obtain ⟨⟨⟨⟨c1, c2⟩, c3⟩, c4⟩, c5⟩ := hc
    split at c5
    · rename_i h' rs' hr'
      simp only [Bool.and_eq_true, beq_iff_eq] at c5
      have hn : ∀ f, f ≠ 0 → f ≠ 1 → f ≠ 2 → h.names f = none := by
        intro f f0 f1 f2
        refine host_names_run (f := f) ?_ hr
        intro d
        simp only [twoDirs]
        (repeat' split) <;> omega
      obtain ⟨k1, w, hw, hh⟩ := stranded_of_check hn c1
      refine ⟨h, h', rs, rs', hr, hr', c2, c5.1, c3, c4, c5.2, k1, w, hw, ?_⟩
      rw [hh]
      intro e he
      simp only [writesOn, wput, wio, List.replicate, List.cons_append, List.nil_append, List.map_cons, List.map_nil, List.mem_cons,
        List.not_mem_nil, or_false] at he
      rcases he with rfl | rfl | rfl | rfl | rfl | rfl | rfl | rfl | rfl | rfl | rfl | rfl | rfl <;> simp [OnlyStore]
    · cases c5
  · cases hc

/-- `C73_partial` at work: the state before the last step of `clear_data`. -/
example : (match Host.run twoDirs ⟨[], fun _ => none, []⟩ clearingUnder with
    | some (h, _) =>
      (match h.procs[0]? with
       | some (some w) => (match w.objs[0]? with | some ob => decide (ob.inst.phase = .clrOpen) | none => false)
       | _ => false) &&
      (match Host.step twoDirs h (.on 0 (.cont 0 ())) with
       | some (_, some (0, .ret (.ok ()))) => true
       | _ => false)
    | none => false) = true := by decide +kernel

end Mmkv
