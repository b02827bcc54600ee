import Verif.Lemmas.WorldMap
import Verif.Props.Durability
/-!
# A whole process with plain stores: C29, C30, C31, and C01, C06, C10 for any number of directories, handles and threads
-/

namespace Mmkv
open Spec World

/-- The records of a call fit one page, and a `HashMap` yields each of its values once. -/
def WEv.Fits (page : Nat) : WEv Unit → Prop
  | .call _ _ m => (evOf m : Ev Unit).Fits page
  | .io _ ord => ∀ l, (ord l).Perm l
  | _ => True

/-- What a data file holds before the process starts: opened alone it shows the map `S`; its records fit a page or are
as the library writes them; and it is at most `K` bytes long. -/
structure FileMap (page K : Nat) (file : Bytes) (S : Store) : Prop where
  opens : ∃ s, Inst.openAt plain () page file = some s ∧ s.Shows S
  fits : RecordsFit page file ∨ Canonical file
  small : file.length ≤ K

theorem FileMap.good {page K : Nat} {h8 : 8 ≤ page} (h32 : page < 2 ^ 32) {file : Bytes} {S : Store} (h : FileMap page K file S) :
    GoodFile (plainEnv page h8 True) crcCodec K file S := by
  obtain ⟨⟨s, hs, hsh⟩, hf, hk⟩ := h
  have := goodFile_of_open (h8 := h8) (h32 := h32) hs hf
  rw [(Inst.shows_open hs).1 hsh] at this
  exact this.mono hk

/-- A process using plain stores: what the theorems below assume of its surroundings. -/
structure Plain (S : Sys Unit) (page : Nat) : Prop where
  h8 : 8 ≤ page
  h32 : page < 2 ^ 32
  codecs : S.codecs = plain
  page : S.page = page
  key : S.keyOk () = true

theorem plain_process {S : Sys Unit} {page K : Nat} (hp : Plain S page) {names : Nat → Option Nat} {inodes : List Bytes}
    (hg : GoodNames names inodes) {S0 : Nat → Store}
    (h0 : ∀ f, FileMap page K (((start names inodes : World Unit).fileAt f).getD []) (S0 f))
    {es : List (WEv Unit)} {w : World Unit} {rs : List WRes} (hrun : World.run S (start names inodes) es = some (w, rs))
    (hfit : ∀ e ∈ es, e.Fits page) (hcalm : CalmRun S (start names inodes) es)
    (hroom : page * (K + es.length) + 8 < 2 ^ 64) :
    (∀ x, .ret x ∈ rs → x = .ok ()) ∧
      ∀ f, FileInv (plainEnv page hp.h8 True) S (fun _ _ => True) K f (S0 f) (callsOf S f es) w := by
  have := fileInv_run (E := plainEnv page hp.h8 True) (K := K) (S0 := S0) (cs := fun _ => []) hp.codecs hp.page es
    (Reg.start S hg.exist hg.inj)
    (J := fun _ _ => True) (fun f => .inl ⟨by simp [start], fun _ _ => (h0 f).good hp.h32⟩)
    (fun e he => by
      have := hfit e he
      cases e with
      | call h d m => exact Ev.Fits.ok hp.h32 this
      | io o ord => exact this
      | _ => trivial)
    hcalm (keyedRun_unit hp.key es _) (fun f => plain_room (by simpa using hroom)) hrun
  simpa using this

/-- **C01**, for a whole process: any number of directories, handles per directory, threads and calls, in any
interleaving with each other and with the background threads.  As long as a directory is only opened anew when earlier
stores on its file have finished closing: every call returns `Ok`, and every possible get through any handle in use,
at any moment when no mutating call holds its store, returns what a plain map says after the calls made on that
directory so far, through whatever handle, in the order they took the lock. -/
theorem C01_process {S : Sys Unit} {page K : Nat} (hp : Plain S page) {names : Nat → Option Nat} {inodes : List Bytes}
    (hg : GoodNames names inodes) {S0 : Nat → Store}
    (h0 : ∀ f, FileMap page K (((start names inodes : World Unit).fileAt f).getD []) (S0 f))
    {es : List (WEv Unit)} {w : World Unit} {rs : List WRes} (hrun : World.run S (start names inodes) es = some (w, rs))
    (hfit : ∀ e ∈ es, e.Fits page) (hcalm : CalmRun S (start names inodes) es)
    (hroom : page * (K + es.length) + 8 < 2 ^ 64) :
    (∀ x, .ret x ∈ rs → x = .ok ()) ∧
      ∀ (h : Nat) (hd : Handle) (s : Inst Unit), w.handles[h]? = some hd → w.store? h = some s → s.phase = .idle →
        s.Shows ((S0 (S.fileOf hd.dir)).run (callsOf S (S.fileOf hd.dir) es)) := by
  obtain ⟨h1, h2⟩ := plain_process hp hg h0 hrun hfit hcalm hroom
  exact ⟨h1, fun h hd s hh hs hi => (h2 _).handle (reg_reachable hg hrun) (live_run_world es (by simp [start]) hrun) hh rfl hs hi⟩

/-- **C06**, for a whole process: once every store on a data file has finished closing, that file, opened by anyone,
shows the plain map of all the calls made on it, whatever else goes on. -/
theorem C06_process {S : Sys Unit} {page K : Nat} (hp : Plain S page) {names : Nat → Option Nat} {inodes : List Bytes}
    (hg : GoodNames names inodes) {S0 : Nat → Store}
    (h0 : ∀ f, FileMap page K (((start names inodes : World Unit).fileAt f).getD []) (S0 f))
    {es : List (WEv Unit)} {w : World Unit} {rs : List WRes} (hrun : World.run S (start names inodes) es = some (w, rs))
    (hfit : ∀ e ∈ es, e.Fits page) (hcalm : CalmRun S (start names inodes) es)
    (hroom : page * (K + es.length) + 8 < 2 ^ 64) {f : Nat}
    (hclosed : ∀ (o : Nat) (ob : Obj Unit), w.objs[o]? = some ob → S.fileOf ob.dir = f → ob.inst.closedOk) :
    ∃ s, Inst.openAt plain () page ((w.fileAt f).getD []) = some s ∧ s.Shows ((S0 f).run (callsOf S f es)) := by
  obtain ⟨_, h2⟩ := plain_process hp hg h0 hrun hfit hcalm hroom
  obtain ⟨s, hs, hd, _⟩ := Inst.dinv_open ((h2 f).at_rest (i := ()) hclosed ⟨fun _ => trivial, fun _ _ _ _ _ => rfl⟩)
  exact ⟨s, hs, shows_of_view hs (by simpa [Store.run] using hd.kvView)⟩

/-- **C10**, for a whole process: if it is killed at any point of its history between two background writes, every data
file, opened by anyone, shows the plain map after some first part of the calls made on it. -/
theorem C10_process {S : Sys Unit} {page K : Nat} (hp : Plain S page) {names : Nat → Option Nat} {inodes : List Bytes}
    (hg : GoodNames names inodes) {S0 : Nat → Store}
    (h0 : ∀ f, FileMap page K (((start names inodes : World Unit).fileAt f).getD []) (S0 f))
    {es : List (WEv Unit)} {w : World Unit} {rs : List WRes} (hrun : World.run S (start names inodes) es = some (w, rs))
    (hfit : ∀ e ∈ es, e.Fits page) (hcalm : CalmRun S (start names inodes) es)
    (hroom : page * (K + es.length) + 8 < 2 ^ 64) (f : Nat) :
    ∃ m s, m ≤ (callsOf S f es).length ∧ Inst.openAt plain () page ((w.fileAt f).getD []) = some s ∧
      s.Shows ((S0 f).run ((callsOf S f es).take m)) := by
  obtain ⟨_, h2⟩ := plain_process hp hg h0 hrun hfit hcalm hroom
  obtain ⟨m, hm, hgf⟩ := (h2 f).at_any_time (i := ()) (fun _ => trivial) (fun _ => ⟨fun _ => trivial, fun _ _ _ _ _ => rfl⟩)
  obtain ⟨s, hs, hd, _⟩ := Inst.dinv_open hgf
  exact ⟨m, s, hm, hs, shows_of_view hs (by simpa [Store.run] using hd.kvView)⟩

/-! ### C29 and C30 -/

/-- Opening a directory, by any spelling, after every store on its file has finished closing. -/
theorem create_after_close {S : Sys Unit} {page K : Nat} (hp : Plain S page) {names : Nat → Option Nat} {inodes : List Bytes}
    (hg : GoodNames names inodes) {S0 : Nat → Store}
    (h0 : ∀ f, FileMap page K (((start names inodes : World Unit).fileAt f).getD []) (S0 f))
    {es : List (WEv Unit)} {w : World Unit} {rs : List WRes} (hrun : World.run S (start names inodes) es = some (w, rs))
    (hfit : ∀ e ∈ es, e.Fits page) (hcalm : CalmRun S (start names inodes) es)
    (hroom : page * (K + es.length) + 8 < 2 ^ 64) (hpo : w.poisoned = false) {dir : String} (hdir : S.dirOk dir = true)
    (hclosed : ∀ (o : Nat) (ob : Obj Unit), w.objs[o]? = some ob → S.fileOf ob.dir = S.fileOf dir → ob.inst.closedOk) :
    ∃ w' s, w.step S (.create dir ()) = some (w', .handle w.handles.length) ∧ w'.store? w.handles.length = some s ∧
      s.phase = .idle ∧ s.Shows ((S0 (S.fileOf dir)).run (callsOf S (S.fileOf dir) es)) := by
  have R := reg_reachable hg hrun
  obtain ⟨_, h2⟩ := plain_process hp hg h0 hrun hfit hcalm hroom
  obtain ⟨s, hs, hd, _⟩ := Inst.dinv_open ((h2 (S.fileOf dir)).at_rest (i := ()) hclosed ⟨fun _ => trivial, fun _ _ _ _ _ => rfl⟩)
  have hu : w.upgrade dir = none := by
    cases hu : w.upgrade dir with
    | none => rfl
    | some o =>
      exfalso
      obtain ⟨hm, hst⟩ := upgrade_eq hu
      obtain ⟨ob, hob, hd⟩ := R.mapOk hm
      have := (hclosed o ob hob (by rw [hd])).1
      exact hst ((R.closed hob).1 this)
  have hcont := touch_content R S.page (S.fileOf dir)
  have hidle : s.phase = .idle := by
    unfold Inst.openAt at hs
    split at hs
    · cases hs
    · injection hs with hs; subst hs; rfl
  obtain ⟨t1, t2, t3, t4⟩ := touch_objs w S.page (S.fileOf dir)
  have hop : Inst.openAt S.codecs () S.page ((w.touch S.page (S.fileOf dir)).1.content (w.touch S.page (S.fileOf dir)).2) = some s := by
    rw [hcont, openAt_configNew, hp.codecs, hp.page]; exact hs
  simp only [World.step, hpo, hu, hdir, hp.key]
  simp only [hop]
  refine ⟨_, s, by simp [World.addHandle, t2]; rfl, ?_, hidle, shows_of_view hs (by simpa [Store.run] using hd.kvView)⟩
  simp [store?, t1]

/-- **C30**, what is true: if the drop of the last handle has finished (its background thread has been waited for) when
`new` runs, the new handle sees every call made before.  Missing from C30: a `new` that overlaps the drop
(`C30_refuted`). -/
theorem C30_partial {S : Sys Unit} {page K : Nat} (hp : Plain S page) {names : Nat → Option Nat} {inodes : List Bytes}
    (hg : GoodNames names inodes) {S0 : Nat → Store}
    (h0 : ∀ f, FileMap page K (((start names inodes : World Unit).fileAt f).getD []) (S0 f))
    {es : List (WEv Unit)} {w : World Unit} {rs : List WRes} (hrun : World.run S (start names inodes) es = some (w, rs))
    (hfit : ∀ e ∈ es, e.Fits page) (hcalm : CalmRun S (start names inodes) es)
    (hroom : page * (K + es.length) + 8 < 2 ^ 64) (hpo : w.poisoned = false) {dir : String} (hdir : S.dirOk dir = true)
    (hsame : ∀ d, S.fileOf d = S.fileOf dir → d = dir)
    (hclosed : ∀ (o : Nat) (ob : Obj Unit), w.objs[o]? = some ob → ob.dir = dir → ob.inst.closedOk) :
    ∃ w' s, w.step S (.create dir ()) = some (w', .handle w.handles.length) ∧ w'.store? w.handles.length = some s ∧
      s.phase = .idle ∧ s.Shows ((S0 (S.fileOf dir)).run (callsOf S (S.fileOf dir) es)) :=
  create_after_close hp hg h0 hrun hfit hcalm hroom hpo hdir fun o ob ho hf => hclosed o ob ho (hsame _ hf)

/-- **C29**, what is true: a handle made with one spelling sees every call made through handles with any other spelling
of the same directory, if the stores of those have finished closing when it is made.  Missing from C29: handles with
different spellings in use at the same time (`C29_refuted`). -/
theorem C29_partial {S : Sys Unit} {page K : Nat} (hp : Plain S page) {names : Nat → Option Nat} {inodes : List Bytes}
    (hg : GoodNames names inodes) {S0 : Nat → Store}
    (h0 : ∀ f, FileMap page K (((start names inodes : World Unit).fileAt f).getD []) (S0 f))
    {es : List (WEv Unit)} {w : World Unit} {rs : List WRes} (hrun : World.run S (start names inodes) es = some (w, rs))
    (hfit : ∀ e ∈ es, e.Fits page) (hcalm : CalmRun S (start names inodes) es)
    (hroom : page * (K + es.length) + 8 < 2 ^ 64) (hpo : w.poisoned = false) {dir : String} (hdir : S.dirOk dir = true)
    (hclosed : ∀ (o : Nat) (ob : Obj Unit), w.objs[o]? = some ob → S.fileOf ob.dir = S.fileOf dir → ob.inst.closedOk) :
    ∃ w' s, w.step S (.create dir ()) = some (w', .handle w.handles.length) ∧ w'.store? w.handles.length = some s ∧
      s.phase = .idle ∧ s.Shows ((S0 (S.fileOf dir)).run (callsOf S (S.fileOf dir) es)) :=
  create_after_close hp hg h0 hrun hfit hcalm hroom hpo hdir hclosed

/-- The store of a handle, with no call under way, and what its gets depend on. -/
def Frozen {ι : Type} (w : World ι) (h o : Nat) (dir : String) (kv : KvMap Buffer) (valid poisoned : Bool) : Prop :=
  (∃ hd : Handle, w.handles[h]? = some hd ∧ hd.obj = o ∧ hd.dir = dir) ∧
  ∃ ob : Obj ι, w.objs[o]? = some ob ∧ ob.inst.kv = kv ∧ ob.inst.valid = valid ∧ ob.inst.poisoned = poisoned ∧ ob.inst.phase = .idle

theorem frozen_step {ι : Type} {S : Sys ι} {w w' : World ι} {e : WEv ι} {r : WRes} {h o : Nat} {dir : String} {kv : KvMap Buffer}
    {v p : Bool} (R : Reg S w) (hf : Frozen w h o dir kv v p) (hst : w.step S e = some (w', r)) (hno : e.callsOn dir = false)
    {hd' : Handle} (hh' : w'.handles[h]? = some hd') (hl' : hd'.st = .live) : Frozen w' h o dir kv v p := by
  obtain ⟨⟨hd, hh, ho, hdir⟩, ob, hob, h1, h2, h3, h4⟩ := hf
  obtain ⟨hd1, g1, g2, g3, g4⟩ := handles_step hst hh
  rw [g1] at hh'; injection hh' with hh'; subst hh'
  refine ⟨⟨hd1, g1, by rw [g2, ho], by rw [g3, hdir]⟩, ?_⟩
  cases step_moves hst with
  | quiet ho' _ _ _ _ => exact ⟨ob, by rw [ho']; exact hob, h1, h2, h3, h4⟩
  | touched _ _ ho' _ _ => exact ⟨ob, by rw [ho']; exact hob, h1, h2, h3, h4⟩
  | opened _ _ ho' _ _ => exact ⟨ob, by rw [ho', List.getElem?_append_left (getElem?_lt hob)]; exact hob, h1, h2, h3, h4⟩
  | @reopened q i x s' r' hx hp _ ho' _ _ =>
    have : q ≠ o := by
      rintro rfl
      rw [hob] at hx; injection hx with hx; subst hx; rw [h4] at hp; cases hp
    exact ⟨ob, by rw [ho', List.getElem?_set_ne this]; exact hob, h1, h2, h3, h4⟩
  | @stepped _ q ev x s' c r' ha hx hs ho' _ _ =>
    by_cases hqo : q = o
    · subst hqo
      rw [hob] at hx; injection hx with hx; subst hx
      refine ⟨_, by rw [ho']; exact List.getElem?_set_self (getElem?_lt hob), ?_⟩
      cases ha with
      | @call k d m y hy hyl hyd =>
        exfalso
        obtain ⟨b1, q1, q2⟩ := R.hobj hh
        obtain ⟨b2, q3, q4⟩ := R.hobj hy
        rw [ho, q3] at q1; injection q1 with q1; subst q1
        have : d = dir := by rw [← hyd, ← q4, q2, hdir]
        simp [WEv.callsOn, this] at hno
      | cont _ _ => simp [Inst.step, h4] at hs
      | io =>
        simp only [Inst.step] at hs
        split at hs
        · cases hs
        · injection hs with hs; injection hs with q1 q2; subst q1; exact ⟨h1, h2, h3, h4⟩
      | @drop k y hy hyl h0 =>
        exfalso
        have : hd.st = .live := g4 hl'
        have hkne : h ≠ k := by
          rintro rfl
          rw [hh] at hy; injection hy with hy; subst hy
          rw [this] at hyl; cases hyl
        have hpos := strong_pos (w := { w with handles := w.handles.set k { y with st := .gone } }) (h := h) (hd := hd)
          (by simp only; rw [List.getElem?_set_ne (fun e => hkne e.symm)]; exact hh) (by simp [this])
        rw [ho] at hpos
        omega
    · exact ⟨ob, by rw [ho', List.getElem?_set_ne hqo]; exact hob, h1, h2, h3, h4⟩

theorem frozen_run {ι : Type} {S : Sys ι} (es : List (WEv ι)) {w w' : World ι} {rs : List WRes} {h o : Nat} {dir : String}
    {kv : KvMap Buffer} {v p : Bool} (R : Reg S w) (hf : Frozen w h o dir kv v p) (hrun : w.run S es = some (w', rs))
    (hno : ∀ e ∈ es, e.callsOn dir = false) {hd' : Handle} (hh' : w'.handles[h]? = some hd') (hl' : hd'.st = .live) :
    Frozen w' h o dir kv v p := by
  induction es generalizing w rs with
  | nil => simp only [World.run, Option.some.injEq, Prod.mk.injEq] at hrun; obtain ⟨rfl, _⟩ := hrun; exact hf
  | cons e es ih =>
    unfold World.run at hrun
    split at hrun
    · cases hrun
    rename_i w1 r hst
    split at hrun
    · cases hrun
    rename_i w2 rs2 hr2
    simp only [Option.some.injEq, Prod.mk.injEq] at hrun
    obtain ⟨rfl, rfl⟩ := hrun
    obtain ⟨hd, hh, ho, hdir⟩ := hf.1
    obtain ⟨hd1, g1, _⟩ := handles_step hst hh
    obtain ⟨hd2, q1, q2, q3, q4⟩ := handles_run es hr2 g1
    rw [q1] at hh'; injection hh' with hh'; subst hh'
    exact ih (R.step hst) (frozen_step R hf hst (hno e (by simp)) g1 (q4 hl')) hr2 (fun e he => hno e (by simp [he]))

/-- **C29 is false of this program, always**: whatever happens through handles made with other strings - also strings
that name the same directory - no get through a handle that was made with the string `dir` ever changes. -/
theorem C29_refuted_always {ι : Type} {S : Sys ι} {names : Nat → Option Nat} {inodes : List Bytes} (hg : GoodNames names inodes)
    {es0 es : List (WEv ι)} {w w' : World ι} {rs0 rs : List WRes} (hrun0 : World.run S (start names inodes) es0 = some (w, rs0))
    (hrun : World.run S w es = some (w', rs)) {h : Nat} {hd : Handle} {s s' : Inst ι} (hh : w.handles[h]? = some hd)
    (hs : w.store? h = some s) (hs' : w'.store? h = some s') (hi : s.phase = .idle)
    (hno : ∀ e ∈ es, e.callsOn hd.dir = false) {α : Type} (key : String) (token : BitVec 32) (fromB : Bytes → Out α) :
    s'.getAs key token fromB = s.getAs key token fromB := by
  obtain ⟨x, ob, h1, h2, h3, rfl⟩ := store_live hs
  rw [hh] at h1; injection h1 with h1; subst h1
  obtain ⟨y, ob', h1', h2', h3', rfl⟩ := store_live hs'
  obtain ⟨⟨z, z1, z2, z3⟩, ob2, g1, g2, g3, g4, g5⟩ := frozen_run es (reg_reachable hg hrun0)
    (o := hd.obj) (dir := hd.dir) (kv := ob.inst.kv) (v := ob.inst.valid) (p := ob.inst.poisoned)
    ⟨⟨hd, hh, rfl, rfl⟩, ob, h3, rfl, rfl, rfl, hi⟩ hrun hno h1' h2'
  rw [h1'] at z1; injection z1 with z1; subst z1
  rw [z2, g1] at h3'; injection h3' with h3'; subst h3'
  simp only [Inst.getAs, g2, g3, g4]

/-- A process in which every string names the same directory, with 64-byte pages. -/
def oneDir : Sys Unit := { codecs := plain, page := 64, fileOf := fun _ => 0 }

/-- The calls of a put through handle `h` on store `o`, up to its return. -/
def wput (h o : Nat) (dir k : String) (v : UInt8) : List (WEv Unit) :=
  [.call h dir (.put k ⟨0, [0, 0, 0, v]⟩), .cont o (), .cont o ()]

/-- The background thread of store `o`: receives a signal, swaps the queues, runs one job, finds its buffer empty. -/
def wio (o : Nat) : List (WEv Unit) := List.replicate 4 (.io o id)

/-- What `get::<i32>` returns through a handle. -/
def wget (w : World Unit) (h : Nat) (k : String) : Option (Out Int) :=
  (w.store? h).map fun s => s.getAs k Ty.i32.token fun b => .ok (beVal b)

/-- **C29 is false of this program**: "d" and "./d" name the same directory.  A put through a handle of the first returns
`Ok` and has reached the file; a handle made with the second (before the put) does not see it (nor ever will:
`C29_refuted_always`); and a put through the second, made later and also acknowledged, is
overridden on disk by a put made earlier through the first. -/
theorem C29_refuted :
    (((start (fun _ => none) []).run oneDir ([.create "d" (), .create "./d" ()] ++ wput 0 0 "d" "k" 7 ++ wio 0)).map fun p =>
      (p.2.filterMap fun | .ret r => some r | _ => none, wget p.1 0 "k", wget p.1 1 "k")) =
      some ([.ok ()], some (.ok 7), some (.err .keyNotFound)) ∧
    (((start (fun _ => none) []).run oneDir ([.create "d" (), .create "./d" ()] ++ wput 0 0 "d" "k" 7 ++ wput 1 1 "./d" "k" 8 ++
        wio 1 ++ wio 0)).map fun p =>
      (p.2.filterMap fun | .ret r => some r | _ => none, (Inst.openAt plain () 64 ((p.1.fileAt 0).getD [])).map fun s =>
        s.getAs "k" Ty.i32.token fun b => Out.ok (beVal b))) =
      some ([.ok (), .ok ()], some (.ok 7)) := by
  constructor <;> decide +kernel

/-- **C30 is false of this program**: one thread puts (acknowledged) and drops the last handle; `Drop::drop` takes the
directory out of the registry and releases the registry lock before the store is waited for; another thread's `new`
then opens the file without the put.  The new handle still does not see it after the drop has finished.  And a put
through the new handle, made after the first was acknowledged, is overridden on disk by it. -/
theorem C30_refuted :
    (((start (fun _ => none) []).run oneDir ([.create "d" ()] ++ wput 0 0 "d" "k" 7 ++ [.drop1 0, .create "d" (), .drop2 0] ++
        wio 0 ++ [.io 0 id])).map fun p =>
      (p.2.filterMap fun | .ret r => some r | _ => none, wget p.1 1 "k", p.1.objs.map fun ob => (ob.inst.phase, ob.inst.lp.io))) =
      some ([.ok ()], some (.err .keyNotFound), [(.closed, .exited), (.idle, .recv)]) ∧
    (((start (fun _ => none) []).run oneDir ([.create "d" ()] ++ wput 0 0 "d" "k" 7 ++ [.drop1 0, .create "d" (), .drop2 0] ++
        wput 1 1 "d" "k" 8 ++ wio 1 ++ wio 0 ++ [.io 0 id])).map fun p =>
      (p.2.filterMap fun | .ret r => some r | _ => none, wget p.1 1 "k",
        (Inst.openAt plain () 64 ((p.1.fileAt 0).getD [])).map fun s => s.getAs "k" Ty.i32.token fun b => Out.ok (beVal b))) =
      some ([.ok (), .ok ()], some (.ok 8), some (.ok 7)) := by
  constructor <;> decide +kernel


/-! ### C31 -/

theorem poisoned_step {ι : Type} {S : Sys ι} {w w' : World ι} {e : WEv ι} {r : WRes} (hp : w.poisoned = true)
    (h : w.step S e = some (w', r)) :
    w'.poisoned = true ∧ ((∃ d, e = .lookup d) ∨ (∃ d i, e = .create d i) ∨ (∃ k, e = .drop1 k) → r = .panic) := by
  have hso : ∀ {w w' : World ι} {o : Nat} {ev : Ev ι} {c : Option Nat} {r : Option (Out Unit)},
      w.stepObj S o ev c = some (w', r) → w'.poisoned = w.poisoned := by
    intro w w' o ev c r h
    obtain ⟨_, _, _, _, rfl⟩ := stepObj_eq h; rfl
  cases e with
  | lookup d =>
    simp only [World.step, hp, if_true, Option.some.injEq, Prod.mk.injEq] at h
    obtain ⟨rfl, rfl⟩ := h; exact ⟨hp, fun _ => rfl⟩
  | create d i =>
    simp only [World.step, hp, if_true, Option.some.injEq, Prod.mk.injEq] at h
    obtain ⟨rfl, rfl⟩ := h; exact ⟨hp, fun _ => rfl⟩
  | drop1 k =>
    simp only [World.step, hp, if_true] at h
    split at h
    · cases h
    split at h
    · cases h
    injection h with h; injection h with h1 h2; subst h1 h2; exact ⟨rfl, fun _ => rfl⟩
  | call k d m =>
    refine ⟨?_, by simp⟩
    simp only [World.step] at h
    split at h
    · cases h
    split at h
    · cases h
    rw [Option.map_eq_some_iff] at h
    obtain ⟨⟨w1, r1⟩, h1, h2⟩ := h
    injection h2 with h2 h3; subst h2
    rw [hso h1]; exact hp
  | io o ord =>
    refine ⟨?_, by simp⟩
    simp only [World.step] at h
    split at h
    · cases h
    rw [Option.map_eq_some_iff] at h
    obtain ⟨⟨w1, r1⟩, h1, h2⟩ := h
    injection h2 with h2 h3; subst h2
    rw [hso h1]; exact hp
  | cont o i =>
    refine ⟨?_, by simp⟩
    simp only [World.step] at h
    split at h
    · cases h
    rw [Option.map_eq_some_iff] at h
    obtain ⟨⟨w1, r1⟩, h1, h2⟩ := h
    injection h2 with h2 h3; subst h2
    split at h1
    · unfold World.reopen at h1
      split at h1
      · cases h1
      have ht := (touch_objs w S.page (S.fileOf ‹Obj ι›.dir)).2.2.2
      generalize w.touch S.page (S.fileOf ‹Obj ι›.dir) = tw at h1 ht
      obtain ⟨w2, n⟩ := tw
      simp only at h1 ht
      injection h1 with h1; injection h1 with h1 h4; subst h1
      exact ht.trans hp
    · rw [hso h1]; exact hp
  | drop2 k =>
    refine ⟨?_, by simp⟩
    simp only [World.step] at h
    split at h
    · cases h
    split at h
    · cases h
    split at h
    · rw [Option.map_eq_some_iff] at h
      obtain ⟨⟨w1, r1⟩, h1, h2⟩ := h
      injection h2 with h2 h3; subst h2
      rw [hso h1]; exact hp
    · injection h with h; injection h with h1 h2; subst h1; exact hp

theorem create_panic_poisons {ι : Type} {S : Sys ι} {w w1 : World ι} {dir : String} {i : ι} (h : w.step S (.create dir i) = some (w1, .panic)) :
    w1.poisoned = true := by
  simp only [World.step] at h
  split at h
  · rename_i hp
    injection h with h; injection h with h1 h2; subst h1; exact hp
  split at h
  · simp [World.addHandle] at h
  split at h
  · injection h with h; injection h with h1 h2; subst h1; rfl
  split at h
  · injection h with h; injection h with h1 h2; subst h1; rfl
  split at h
  · injection h with h; injection h with h1 h2; subst h1; rfl
  · simp [World.addHandle] at h

/-- **C31 is false of this program**, whatever `new` panicked for (no writable directory, a malformed key, a file it cannot read or map): in every
continuation every `new` and every drop of a handle, of whatever directory, panics. -/
theorem C31_refuted_any {ι : Type} {S : Sys ι} {w w1 : World ι} {dir : String} {i : ι} (h : w.step S (.create dir i) = some (w1, .panic))
    {es : List (WEv ι)} {w2 : World ι} {rs : List WRes} (hrun : w1.run S es = some (w2, rs)) {n : Nat} {e : WEv ι} (he : es[n]? = some e)
    (hcase : (∃ d, e = .lookup d) ∨ (∃ d i, e = .create d i) ∨ (∃ k, e = .drop1 k)) : rs[n]? = some .panic := by
  have key : ∀ (es : List (WEv ι)) (w1 : World ι), w1.poisoned = true → ∀ (w2 : World ι) (rs : List WRes), w1.run S es = some (w2, rs) →
        ∀ (n : Nat) (e : WEv ι), es[n]? = some e → ((∃ d, e = .lookup d) ∨ (∃ d i, e = .create d i) ∨ (∃ k, e = .drop1 k)) →
          rs[n]? = some .panic := by
    intro es
    induction es with
    | nil => intro _ _ _ _ _ n e he; simp at he
    | cons x es ih =>
      intro w1 hp w2 rs hrun n e he hcase
      unfold World.run at hrun
      split at hrun
      · cases hrun
      rename_i w3 r hst
      split at hrun
      · cases hrun
      rename_i w4 rs2 hr2
      simp only [Option.some.injEq, Prod.mk.injEq] at hrun
      obtain ⟨rfl, rfl⟩ := hrun
      obtain ⟨g1, g2⟩ := poisoned_step hp hst
      cases n with
      | zero =>
        simp only [List.getElem?_cons_zero, Option.some.injEq] at he
        subst he
        simp [g2 hcase]
      | succ n => exact ih w3 g1 w4 rs2 hr2 n e he hcase
  exact key es w1 (create_panic_poisons h) w2 rs hrun n e he hcase

/-- **C31 is false of this program**: once one `new` has panicked (here: its path is no writable directory), in every
continuation every `new` and every drop of a handle, of whatever directory, panics. -/
theorem C31_refuted {ι : Type} {S : Sys ι} {w : World ι} {dir : String} {i : ι} (hp : w.poisoned = false)
    (hu : w.upgrade dir = none) (hdir : S.dirOk dir = false) :
    ∃ w1, w.step S (.create dir i) = some (w1, .panic) ∧
      ∀ (es : List (WEv ι)) (w2 : World ι) (rs : List WRes), w1.run S es = some (w2, rs) →
        ∀ (n : Nat) (e : WEv ι), es[n]? = some e → ((∃ d, e = .lookup d) ∨ (∃ d i, e = .create d i) ∨ (∃ k, e = .drop1 k)) →
          rs[n]? = some .panic := by
  have h : w.step S (.create dir i) = some ({ w with poisoned := true }, .panic) := by simp [World.step, hp, hu, hdir]
  exact ⟨_, h, fun es w2 rs hrun n e he hcase => C31_refuted_any h hrun he hcase⟩

theorem touch_poison {ι : Type} (w : World ι) (b : Bool) (page name : Nat) :
    ({ w with poisoned := b } : World ι).touch page name =
      ({ (w.touch page name).1 with poisoned := b }, (w.touch page name).2) := by
  unfold World.touch
  simp only
  split <;> rfl

theorem stepObj_poison {ι : Type} (S : Sys ι) (w : World ι) (b : Bool) (o : Nat) (ev : Ev ι) (c : Option Nat) :
    ({ w with poisoned := b } : World ι).stepObj S o ev c =
      (w.stepObj S o ev c).map fun p => ({ p.1 with poisoned := b }, p.2) := by
  unfold World.stepObj
  simp only [World.content]
  split
  · rfl
  · split <;> rfl

theorem step_poison {ι : Type} (S : Sys ι) (w : World ι) (b : Bool) {e : WEv ι}
    (he : (∃ k d m, e = .call k d m) ∨ (∃ o j, e = .cont o j) ∨ ∃ o ord, e = .io o ord) :
    ({ w with poisoned := b } : World ι).step S e = (w.step S e).map fun p => ({ p.1 with poisoned := b }, p.2) := by
  have hb : ∀ k, ({ w with poisoned := b } : World ι).busy k = w.busy k := fun _ => rfl
  rcases he with ⟨k, d, m, rfl⟩ | ⟨o, j, rfl⟩ | ⟨o, ord, rfl⟩
  · simp only [World.step]
    split
    · rfl
    · rename_i hd hh
      rw [hb]
      split
      · rfl
      · rw [stepObj_poison, Option.map_map, Option.map_map]; rfl
  · simp only [World.step]
    split
    · rfl
    · rename_i ob hob
      split
      · have : ({ w with poisoned := b } : World ι).reopen S o ob j =
            (w.reopen S o ob j).map fun p => ({ p.1 with poisoned := b }, p.2) := by
          unfold World.reopen
          rw [touch_poison]
          have hf : ({ w with poisoned := b } : World ι).fileAt (S.fileOf ob.dir) = w.fileAt (S.fileOf ob.dir) := rfl
          rw [hf]
          split <;> rfl
        rw [this, Option.map_map, Option.map_map]; rfl
      · rw [stepObj_poison, Option.map_map, Option.map_map]; rfl
  · simp only [World.step]
    split
    · rfl
    · rw [stepObj_poison, Option.map_map, Option.map_map]; rfl

/-- **C31**, what is true: a `new` that panics changes nothing a handle that already exists depends on - no handle, no
store, no other data file - and the poisoned registry lock makes no difference to mutating calls through handles made
before nor to the background threads.  Missing from C31: making and dropping handles of other directories
(`C31_refuted`). -/
theorem C31_partial {ι : Type} {S : Sys ι} {names : Nat → Option Nat} {inodes : List Bytes} (hg : GoodNames names inodes)
    {es0 : List (WEv ι)} {w w' : World ι} {rs0 : List WRes} (hrun0 : World.run S (start names inodes) es0 = some (w, rs0))
    {dir : String} {i : ι} (h : w.step S (.create dir i) = some (w', .panic)) :
    w'.handles = w.handles ∧ (∀ k, w'.store? k = w.store? k) ∧ (∀ f, f ≠ S.fileOf dir → w'.fileAt f = w.fileAt f) ∧
    ∀ (b : Bool) (e : WEv ι), ((∃ k d m, e = .call k d m) ∨ (∃ o j, e = .cont o j) ∨ ∃ o ord, e = .io o ord) →
      ({ w' with poisoned := b } : World ι).step S e = (w'.step S e).map fun p => ({ p.1 with poisoned := b }, p.2) := by
  have R := reg_reachable hg hrun0
  have hho : w'.handles = w.handles ∧ w'.objs = w.objs := by
    obtain ⟨t1, t2, t3, t4⟩ := touch_objs w S.page (S.fileOf dir)
    simp only [World.step] at h
    generalize w.touch S.page (S.fileOf dir) = tw at h t1 t2 t3 t4
    obtain ⟨w2, n⟩ := tw
    simp only at h t1 t2 t3 t4
    split at h
    · injection h with h; injection h with h1 h2; subst h1; exact ⟨rfl, rfl⟩
    split at h
    · injection h with h; injection h with h1 h2; cases h2
    split at h
    · injection h with h; injection h with h1 h2; subst h1; exact ⟨rfl, rfl⟩
    split at h
    · injection h with h; injection h with h1 h2; subst h1; exact ⟨t2, t1⟩
    split at h
    · injection h with h; injection h with h1 h2; subst h1; exact ⟨t2, t1⟩
    · injection h with h; injection h with h1 h2; cases h2
  refine ⟨hho.1, ?_, ?_, fun b e he => step_poison S w' b he⟩
  · intro k; unfold store?; rw [hho.1, hho.2]
  · intro f hf
    refine (same_step R h (g := f) ?_).file
    simp only [WEv.file?, ne_eq, Option.some.injEq]
    exact fun e => hf e.symm

/-! ### The hypotheses can be met -/

/-- A decision procedure for `CalmRun`. -/
def calmRunB {ι : Type} (S : Sys ι) : World ι → List (WEv ι) → Bool
  | _, [] => true
  | w, e :: es =>
    (match e with
      | .create dir _ => w.upgrade dir != none || w.objs.all fun ob =>
          S.fileOf ob.dir != S.fileOf dir || (ob.inst.phase == .closed && ob.inst.lp.io == .exited)
      | _ => true) &&
    match w.step S e with
    | none => true
    | some (w', _) => calmRunB S w' es

theorem calmRun_of {ι : Type} {S : Sys ι} : ∀ (es : List (WEv ι)) {w : World ι}, calmRunB S w es = true → CalmRun S w es := by
  intro es
  induction es with
  | nil => intro w _; trivial
  | cons e es ih =>
    intro w h
    unfold calmRunB at h
    rw [Bool.and_eq_true] at h
    refine ⟨?_, ?_⟩
    · cases e with
      | create dir i =>
        have h1 := h.1
        simp only [Bool.or_eq_true, List.all_eq_true, bne_iff_ne, ne_eq, Bool.and_eq_true, beq_iff_eq] at h1
        intro hu o ob ho hf
        rcases h1 with h1 | h1
        · exact absurd hu h1
        · rcases h1 ob (List.mem_of_getElem? ho) with h2 | h2
          · exact absurd hf h2
          · exact h2
      | _ => trivial
    · intro w' r hst
      have h2 := h.2
      rw [hst] at h2
      exact ih h2

/-- A decision procedure for `Avoids`. -/
def avoidsB {ι : Type} (S : Sys ι) (g : Nat) : World ι → List (WEv ι) → Bool
  | _, [] => true
  | w, e :: es => (e.file? S w != some g) &&
    match w.step S e with
    | none => true
    | some (w', _) => avoidsB S g w' es

theorem avoids_of {ι : Type} {S : Sys ι} {g : Nat} : ∀ (es : List (WEv ι)) {w : World ι}, avoidsB S g w es = true → Avoids S g w es := by
  intro es
  induction es with
  | nil => intro w _; trivial
  | cons e es ih =>
    intro w h
    unfold avoidsB at h
    rw [Bool.and_eq_true] at h
    refine ⟨by simpa using h.1, ?_⟩
    intro w' r hst
    have h2 := h.2
    rw [hst] at h2
    exact ih h2

theorem fileMap_empty : FileMap 64 0 [] Store.empty := by
  refine ⟨?_, .inl ?_, by simp⟩
  · obtain ⟨s, hs, hd, _⟩ := Inst.dinv_open (E := plainEnv 64 (by decide) False) (i := ()) (K := 0) .empty
    exact ⟨s, hs, shows_of_view hs (by simpa [Store.run] using hd.kvView)⟩
  · intro items hi
    exact absurd hi (by simp [fileRecords, WState.readItems, WState.writeOffset, WState.lenOffset])

/-- Directories "a" and "b" with 64-byte pages; "bad" is not a directory. -/
def twoDirs : Sys Unit :=
  { codecs := plain, page := 64, fileOf := fun d => if d = "a" then 0 else if d = "b" then 1 else 2, dirOk := fun d => d != "bad" }

/-- Two handles of "a", one of "b"; puts through all, a compaction in "a", everything on "a" closed and opened again. -/
def demoWorld : List (WEv Unit) :=
  [.lookup "a", .create "a" (), .lookup "a", .create "b" ()] ++
  wput 0 0 "a" "k" 1 ++ wput 2 1 "b" "k" 2 ++ wio 1 ++ wput 1 0 "a" "k" 3 ++ wio 0 ++ wput 0 0 "a" "j" 4 ++ wio 0 ++
  [.call 1 "a" (.delete "j"), .cont 0 (), .cont 0 ()] ++ wput 0 0 "a" "l" 5 ++ wio 0 ++ wio 0 ++ [.io 0 id] ++
  [.drop1 0, .drop1 1, .drop2 1, .drop2 0, .io 0 id, .io 0 id, .io 0 id, .io 0 id, .lookup "a", .create "a" ()]

example : (((start (fun _ => none) []).run twoDirs demoWorld).map fun p =>
      (p.1.objs.map fun ob => (ob.inst.phase, ob.inst.lp.io), p.1.strong 0)) =
    some ([(.closed, .exited), (.idle, .recv), (.idle, .recv)], 0) := by decide +kernel

example : (((start (fun _ => none) []).run twoDirs demoWorld).map fun p =>
      [wget p.1 3 "k", wget p.1 3 "l", wget p.1 3 "j", wget p.1 2 "k", wget p.1 2 "l"]) =
    some [some (.ok 3), some (.ok 5), some (.err .keyNotFound), some (.ok 2), some (.err .keyNotFound)] := by decide +kernel

/-- The hypotheses of `C01_process`, `C06_process` and `C10_process` hold of this run. -/
example : Plain twoDirs 64 ∧ GoodNames (fun _ => none) [] ∧
    (∀ f, FileMap 64 0 (((start (fun _ => none) [] : World Unit).fileAt f).getD []) Store.empty) ∧
    (∀ e ∈ demoWorld, e.Fits 64) ∧ CalmRun twoDirs (start (fun _ => none) []) demoWorld ∧
    64 * (0 + demoWorld.length) + 8 < 2 ^ 64 := by
  refine ⟨⟨by decide, by decide, rfl, rfl, rfl⟩, .none, fun _ => fileMap_empty, ?_, calmRun_of _ (by decide +kernel), by decide⟩
  have hput : ∀ h o d k v, (kvToBytes ⟨k, 0, [0, 0, 0, v]⟩).length ≤ 59 → ∀ e ∈ wput h o d k v, e.Fits 64 := by
    intro h o d k v hl e he
    simp only [wput, List.mem_cons, List.not_mem_nil, or_false] at he
    rcases he with rfl | rfl | rfl
    · simp only [WEv.Fits, evOf, Ev.Fits, recordSize]; omega
    · trivial
    · trivial
  have hdel : (WEv.call 1 "a" (.delete "j") : WEv Unit).Fits 64 := by
    have : (kvToBytes ⟨"j", deletedToken, []⟩).length ≤ 59 := by decide
    simp only [WEv.Fits, evOf, Ev.Fits, recordSize]; omega
  have hio : ∀ o n, ∀ e ∈ List.replicate n (WEv.io o id : WEv Unit), e.Fits 64 := by
    intro o n e he
    rw [List.mem_replicate] at he
    obtain ⟨_, rfl⟩ := he
    exact fun l => List.Perm.refl l
  have h1 : ∀ e : WEv Unit, (∀ k d m, e ≠ .call k d m) → (∀ o ord, e ≠ .io o ord) → e.Fits 64 := by
    intro e g1 g2
    cases e with
    | call k d m => exact absurd rfl (g1 k d m)
    | io o ord => exact absurd rfl (g2 o ord)
    | _ => trivial
  have hio1 : ∀ o, (WEv.io o id : WEv Unit).Fits 64 := fun o l => List.Perm.refl l
  unfold demoWorld wio
  simp only [List.forall_mem_append, List.forall_mem_cons]
  simp only [List.not_mem_nil, false_implies, implies_true, and_true, hdel, hio1, true_and]
  refine ⟨⟨⟨⟨⟨⟨⟨⟨⟨⟨⟨⟨?_, ?_⟩, ?_⟩, ?_⟩, ?_⟩, ?_⟩, ?_⟩, ?_⟩, ?_⟩, ?_⟩, ?_⟩, ?_⟩, ?_⟩
  all_goals first
    | exact hput _ _ _ _ _ (by decide)
    | exact hio _ _
    | (repeat' constructor) <;> exact h1 _ (by simp) (by simp)

/-- A put through the handle of "b" and the opening of a third directory avoid the data file of "a" (C28). -/
example : ((start (fun _ => none) []).run twoDirs [.create "a" (), .create "b" ()]).map
      (fun p => avoidsB twoDirs 0 p.1 (wput 1 1 "b" "k" 2 ++ wio 1 ++ [.create "c" (), .create "bad" (), .drop1 1])) = some true := by
  decide +kernel

/-- `new` on a path that is no directory panics, and poisons (C31). -/
example : ((start (fun _ => none) []).run twoDirs [.create "a" (), .create "bad" (), .lookup "a", .drop1 0]).map (·.2) =
    some [.handle 0, .panic, .panic, .panic] := by decide +kernel

/-- ... while puts and gets through the existing handle go on (C31). -/
example : ((start (fun _ => none) []).run twoDirs ([.create "a" (), .create "bad" ()] ++ wput 0 0 "a" "k" 1)).map
      (fun p => (p.2, wget p.1 0 "k")) = some ([.handle 0, .panic, .quiet, .quiet, .ret (.ok ())], some (.ok 1)) := by decide +kernel

end Mmkv
