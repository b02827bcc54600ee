import Verif.Props.EncProc
/-!
# A whole process with encrypted stores: C01, C06, C10, C29 and C30 with the `encryption` feature
-/

namespace Mmkv
open Spec World

/-- The encrypted records of a call fit one page, a `HashMap` yields each of its values once, and `OsRng` yields as many bytes as asked for. -/
def WEv.EncOk (page : Nat) : WEv Bytes → Prop
  | .call _ _ (.put key e) => encRecordSize key e.token e.bytes ≤ page
  | .call _ _ (.delete key) => encRecordSize key deletedToken [] ≤ page
  | .io _ ord => ∀ l, (ord l).Perm l
  | .create _ rand => rand.length = 11
  | .cont _ rand => rand.length = 11
  | _ => True

/-- The calls made on data file `f`, in the order they took the lock. -/
def encCallsOn (fileOf : String → Nat) (f : Nat) (es : List (WEv Bytes)) : List Mutation :=
  es.filterMap fun
    | .call _ dir m => if fileOf dir = f then some m else none
    | _ => none

/-- Whenever a directory is opened anew, every earlier store on the same data file has finished closing. -/
def EncWorld.CalmRun (S : Sys (Bytes × Bytes)) (keys : Nat → String) : EncWorld → List (WEv Bytes) → Prop
  | _, [] => True
  | s, e :: es =>
    (∀ dir rand, e = .create dir rand → s.w.upgrade dir = none → ∀ (o : Nat) (ob : Obj (Bytes × Bytes)), s.w.objs[o]? = some ob →
      S.fileOf ob.dir = S.fileOf dir → ob.inst.closedOk) ∧
    ∀ s' r, s.step S keys e = some (s', r) → CalmRun S keys s' es

theorem encCallsOn_cons (fileOf : String → Nat) (f : Nat) (e : WEv Bytes) (es : List (WEv Bytes)) :
    encCallsOn fileOf f (e :: es) = encCallsOn fileOf f [e] ++ encCallsOn fileOf f es := by
  unfold encCallsOn
  rw [List.filterMap_cons, List.filterMap_cons, List.filterMap_nil]
  split <;> simp_all

theorem callsOf_at (S : Sys (Bytes × Bytes)) (f : Nat) (e : WEv Bytes) (i : Bytes × Bytes) : callsOf S f [e.at i] = encCallsOn S.fileOf f [e] := by
  cases e <;> rfl

section
variable {C : Cipher} {page K : Nat} {h8 : 8 ≤ page} {fileOf : String → Nat} {dirOk : String → Bool} {keys : Nat → String} {n0 : Nat → Option Bytes} {S0 : Nat → Store}

/-- What holds of a process with encrypted stores. -/
structure EncBase (C : Cipher) (page K : Nat) (h8 : 8 ≤ page) (fileOf : String → Nat) (dirOk : String → Bool) (keys : Nat → String) (n0 : Nat → Option Bytes)
    (S0 : Nat → Store) (s : EncWorld) (cs : Nat → List Mutation) : Prop where
  base : Base (encEnv C page h8 True) (encProcess C page fileOf dirOk) (StartIdx keys n0) K S0 (fun _ => True) s.w cs
  nonces : NInv (encProcess C page fileOf dirOk) keys n0 s.nonces s.w

theorem encBase_step {s s' : EncWorld} {cs : Nat → List Mutation} {e : WEv Bytes} {r : WRes} (h32 : page < 2 ^ 32) (hkeys : ∀ f, (decodeKey (keys f)).isSome = true)
    (hi : EncBase C page K h8 fileOf dirOk keys n0 S0 s cs) (he : e.EncOk page)
    (hcalm : ∀ dir rand, e = .create dir rand → s.w.upgrade dir = none → ∀ (o : Nat) (ob : Obj (Bytes × Bytes)), s.w.objs[o]? = some ob →
      fileOf ob.dir = fileOf dir → ob.inst.closedOk)
    (hroom : ∀ f, (encEnv C page h8 True).Room (K + (cs f).length)) (hs : s.step (encProcess C page fileOf dirOk) keys e = some (s', r)) :
    (∀ x, r = .ret x → x = .ok ()) ∧ EncBase C page K h8 fileOf dirOk keys n0 S0 s' (fun f => cs f ++ encCallsOn fileOf f [e]) := by
  unfold EncWorld.step at hs
  split at hs
  · cases hs
  rename_i w1 r1 hst
  injection hs with hs; injection hs with h1 h2; subst h1 h2
  have hcalm' : Calm (encProcess C page fileOf dirOk) s.w (e.at (e.openIdx (encProcess C page fileOf dirOk) keys s.nonces s.w)) := by
    cases e with
    | create d rand => exact hcalm d rand rfl
    | _ => trivial
  have hrand : e.RandOk := by
    cases e with
    | create d rand => exact he
    | cont o rand => exact he
    | _ => trivial
  have hkey : (e.at (e.openIdx (encProcess C page fileOf dirOk) keys s.nonces s.w)).Keyed (encProcess C page fileOf dirOk) (StartIdx keys n0) s.w := by
    cases e with
    | create d rand =>
      intro hu
      exact ⟨keyOk_openIdx hkeys _ _, hi.nonces.keyed hi.base (hcalm d rand rfl hu) hrand⟩
    | cont o rand =>
      have hob : ∃ ob, s.w.objs[o]? = some ob := by
        simp only [WEv.at, World.step] at hst
        split at hst
        · cases hst
        · exact ⟨_, by assumption⟩
      obtain ⟨ob, hob⟩ := hob
      show (encProcess C page fileOf dirOk).keyOk _ = true
      simp only [WEv.openIdx, hob]
      exact keyOk_openIdx hkeys _ _
    | _ => trivial
  have hok : (e.at (e.openIdx (encProcess C page fileOf dirOk) keys s.nonces s.w)).Ok (encEnv C page h8 True) := by
    cases e with
    | call h d m => exact (encFits_evOf (m := m) (by cases m <;> first | exact he | trivial)).ok h32
    | io o ord => exact he
    | _ => trivial
  obtain ⟨g1, g2⟩ := base_step (E := encEnv C page h8 True) rfl rfl hkey hi.base hok hcalm' (fun _ _ _ => trivial) hroom hst
  refine ⟨g1, ?_, ?_⟩
  · simp only [callsOf_at] at g2
    exact g2
  · exact ninv_step (E := encEnv C page h8 True) rfl rfl hkeys hi.nonces hi.base hrand hcalm' hst fun _ _ _ => g1

theorem encBase_run (h32 : page < 2 ^ 32) (hkeys : ∀ f, (decodeKey (keys f)).isSome = true) (es : List (WEv Bytes)) :
    ∀ {s s' : EncWorld} {cs : Nat → List Mutation} {rs : List WRes}, EncBase C page K h8 fileOf dirOk keys n0 S0 s cs → (∀ e ∈ es, e.EncOk page) →
    EncWorld.CalmRun (encProcess C page fileOf dirOk) keys s es → (∀ f, (encEnv C page h8 True).Room (K + (cs f).length + es.length)) →
    s.run (encProcess C page fileOf dirOk) keys es = some (s', rs) →
    (∀ x, .ret x ∈ rs → x = .ok ()) ∧ EncBase C page K h8 fileOf dirOk keys n0 S0 s' (fun f => cs f ++ encCallsOn fileOf f es) := by
  induction es with
  | nil =>
    intro s s' cs rs hi _ _ _ hs
    simp only [EncWorld.run, Option.some.injEq, Prod.mk.injEq] at hs
    obtain ⟨rfl, rfl⟩ := hs
    exact ⟨by simp, by simpa [encCallsOn] using hi⟩
  | cons e es ih =>
    intro s s' cs rs hi hok hcalm hroom hs
    simp only [EncWorld.run] at hs
    split at hs
    · cases hs
    rename_i s1 r hst
    split at hs
    · cases hs
    rename_i s2 rs2 hrun
    simp only [Option.some.injEq, Prod.mk.injEq] at hs
    obtain ⟨rfl, rfl⟩ := hs
    obtain ⟨g1, g2⟩ := encBase_step h32 hkeys hi (hok e (by simp)) hcalm.1 (fun f => (hroom f).mono (by omega)) hst
    have hle : ∀ f, (encCallsOn fileOf f [e]).length ≤ 1 := fun f => by
      unfold encCallsOn; exact List.length_filterMap_le _ _
    obtain ⟨g3, g4⟩ := ih g2 (fun e he => hok e (by simp [he])) (hcalm.2 _ _ hst)
      (fun f => (hroom f).mono (by have := hle f; simp only [List.length_cons, List.length_append]; omega)) hrun
    refine ⟨fun x hx => ?_, ?_⟩
    · rcases List.mem_cons.1 hx with hx | hx
      · exact g1 x hx.symm
      · exact g3 x hx
    · have e1 : (fun f => cs f ++ encCallsOn fileOf f (e :: es)) = fun f => cs f ++ encCallsOn fileOf f [e] ++ encCallsOn fileOf f es := by
        funext f; rw [encCallsOn_cons, List.append_assoc]
      rw [e1]; exact g4

theorem encBase_process (h8 : 8 ≤ page) (h32 : page < 2 ^ 32) (hkeys : ∀ f, (decodeKey (keys f)).isSome = true) {names : Nat → Option Nat} {inodes : List Bytes}
    (hg : GoodNames names inodes) (h0 : ∀ f, EncFileMap C page K (keys f) (EncWorld.dir ⟨start names inodes, n0⟩ f) (S0 f))
    {es : List (WEv Bytes)} {s : EncWorld} {rs : List WRes} (hrun : EncWorld.run (encProcess C page fileOf dirOk) keys ⟨start names inodes, n0⟩ es = some (s, rs))
    (hok : ∀ e ∈ es, e.EncOk page) (hcalm : EncWorld.CalmRun (encProcess C page fileOf dirOk) keys ⟨start names inodes, n0⟩ es)
    (hroom : page * (K + es.length) + 8 < 2 ^ 64) (hctr : K + es.length < 2 ^ 32 - 1) :
    (∀ x, .ret x ∈ rs → x = .ok ()) ∧ EncBase C page K h8 fileOf dirOk keys n0 S0 s (fun f => encCallsOn fileOf f es) := by
  have hstart : EncBase C page K h8 fileOf dirOk keys n0 S0 ⟨start names inodes, n0⟩ (fun _ => []) := by
    refine ⟨⟨Reg.start _ hg.exist hg.inj, fun f => .inl ⟨by simp [start], ?_⟩, by simp [start], by simp [start]⟩, fun _ _ => rfl, by simp [start]⟩
    rintro i ⟨rand, hr, rfl⟩
    obtain ⟨k, hk⟩ := Option.isSome_iff_exists.1 (hkeys f)
    have := (h0 f).good (h8 := h8) h32 hk hr
    rw [openIdx, hk]
    exact this
  have := encBase_run h32 hkeys es hstart hok hcalm
    (fun f => ⟨by simpa [encEnv] using hroom, by simpa [encEnv, aeadPos, counterMax] using hctr⟩) hrun
  simpa using this

/-- The key and nonce whoever opens the directory next uses are right for its file, if it has one. -/
theorem encBase_next {s : EncWorld} {cs : Nat → List Mutation} (hi : EncBase C page K h8 fileOf dirOk keys n0 S0 s cs) {f : Nat} {rand : Bytes} (hr : rand.length = nonceLen)
    (hf : s.w.fileAt f ≠ none) : Keyed (encProcess C page fileOf dirOk) (StartIdx keys n0) s.w f (openIdx keys s.nonces f rand) := by
  refine ⟨fun h => ⟨rand, hr, by rw [openIdx, openIdx, hi.nonces.unused f h]⟩, fun o ob ho hof hl => ?_⟩
  subst hof
  obtain ⟨h1, h2, h3⟩ := hi.nonces.last o ob ho hl
  have hnr : ob.inst.lp.cb.removed = false := by
    rcases hi.base.file ((encProcess C page fileOf dirOk).fileOf ob.dir) with ⟨g, _⟩ | ⟨q, x, pre, post, g1, g2, g3, g4, g5, g6, g7⟩
    · exact absurd rfl (g o ob ho)
    · by_cases hop : o = q
      · subst hop
        rw [ho] at g1; injection g1 with g1; subst g1
        cases hr0 : ob.inst.lp.cb.removed with
        | false => rfl
        | true => rw [hr0] at g7; simp [fileAt, g7] at hf
      · have := (g3 o ob hop ho rfl).2
        have := hl q x g1 g2
        omega
  rw [hnr] at h3
  rw [openIdx, h1, h3]
  simp only [Bool.false_eq_true, if_false, initNonce_some h2, Option.getD_some]

end

/-- **C01**, for a whole process with the `encryption` feature: any number of directories, each with its key and nonce file, handles per directory,
threads and calls, in any interleaving with each other and with the background threads.  As long as a directory is only opened anew when earlier stores
on its file have finished closing: every call returns `Ok`, and every possible get through any handle in use, at any moment when no mutating call holds its
store, returns what a plain map says after the calls made on that directory so far. -/
theorem C01_encrypted_process {C : Cipher} {page K : Nat} (h8 : 8 ≤ page) (h32 : page < 2 ^ 32) {fileOf : String → Nat} {dirOk : String → Bool} {keys : Nat → String}
    (hkeys : ∀ f, (decodeKey (keys f)).isSome = true) {names : Nat → Option Nat} {inodes : List Bytes} (hg : GoodNames names inodes)
    {n0 : Nat → Option Bytes} {S0 : Nat → Store} (h0 : ∀ f, EncFileMap C page K (keys f) (EncWorld.dir ⟨start names inodes, n0⟩ f) (S0 f))
    {es : List (WEv Bytes)} {s : EncWorld} {rs : List WRes} (hrun : EncWorld.run (encProcess C page fileOf dirOk) keys ⟨start names inodes, n0⟩ es = some (s, rs))
    (hok : ∀ e ∈ es, e.EncOk page) (hcalm : EncWorld.CalmRun (encProcess C page fileOf dirOk) keys ⟨start names inodes, n0⟩ es)
    (hroom : page * (K + es.length) + 8 < 2 ^ 64) (hctr : K + es.length < 2 ^ 32 - 1) :
    (∀ x, .ret x ∈ rs → x = .ok ()) ∧
      ∀ (h : Nat) (hd : Handle) (x : Inst (Bytes × Bytes)), s.w.handles[h]? = some hd → s.w.store? h = some x → x.phase = .idle →
        x.Shows ((S0 (fileOf hd.dir)).run (encCallsOn fileOf (fileOf hd.dir) es)) := by
  obtain ⟨h1, h2⟩ := encBase_process h8 h32 hkeys hg h0 hrun hok hcalm hroom hctr
  exact ⟨h1, fun h hd x hh hs hi => (h2.base.file _).handle h2.base.reg h2.base.lv hh rfl hs hi⟩

/-- **C06**, for a whole process with the `encryption` feature: once every store on a data file has finished closing, the directory, opened by anyone with
its key, shows the plain map of all the calls made on it, whatever else goes on. -/
theorem C06_encrypted_process {C : Cipher} {page K : Nat} (h8 : 8 ≤ page) (h32 : page < 2 ^ 32) {fileOf : String → Nat} {dirOk : String → Bool} {keys : Nat → String}
    (hkeys : ∀ f, (decodeKey (keys f)).isSome = true) {names : Nat → Option Nat} {inodes : List Bytes} (hg : GoodNames names inodes)
    {n0 : Nat → Option Bytes} {S0 : Nat → Store} (h0 : ∀ f, EncFileMap C page K (keys f) (EncWorld.dir ⟨start names inodes, n0⟩ f) (S0 f))
    {es : List (WEv Bytes)} {s : EncWorld} {rs : List WRes} (hrun : EncWorld.run (encProcess C page fileOf dirOk) keys ⟨start names inodes, n0⟩ es = some (s, rs))
    (hok : ∀ e ∈ es, e.EncOk page) (hcalm : EncWorld.CalmRun (encProcess C page fileOf dirOk) keys ⟨start names inodes, n0⟩ es)
    (hroom : page * (K + es.length) + 8 < 2 ^ 64) (hctr : K + es.length < 2 ^ 32 - 1) {f : Nat}
    (hclosed : ∀ (o : Nat) (ob : Obj (Bytes × Bytes)), s.w.objs[o]? = some ob → fileOf ob.dir = f → ob.inst.closedOk) {rand : Bytes} (hrand : rand.length = 11) :
    ∃ x, openEnc C page (keys f) rand (s.dir f) = some x ∧ x.Shows ((S0 f).run (encCallsOn fileOf f es)) := by
  obtain ⟨_, h2⟩ := encBase_process h8 h32 hkeys hg h0 hrun hok hcalm hroom hctr
  obtain ⟨k, hk⟩ := Option.isSome_iff_exists.1 (hkeys f)
  have hgf := (h2.base.file f).at_rest hclosed (h2.nonces.keyed h2.base hclosed hrand)
  rw [openIdx, hk] at hgf
  obtain ⟨x, hx, hd, _⟩ := Inst.dinv_open hgf
  refine ⟨x, ?_, shows_of_view hx (by simpa [Store.run] using hd.kvView)⟩
  simp only [openEnc, encryptorInit, hk]
  exact hx

/-- **C10**, for a whole process with the `encryption` feature: if it is killed at any point of its history between two background writes, every directory, opened
by anyone with its key, shows the plain map after some first part of the calls made on it.  `left`: if the data file is gone, a nonce file may or may not be. -/
theorem C10_encrypted_process {C : Cipher} {page K : Nat} (h8 : 8 ≤ page) (h32 : page < 2 ^ 32) {fileOf : String → Nat} {dirOk : String → Bool} {keys : Nat → String}
    (hkeys : ∀ f, (decodeKey (keys f)).isSome = true) {names : Nat → Option Nat} {inodes : List Bytes} (hg : GoodNames names inodes)
    {n0 : Nat → Option Bytes} {S0 : Nat → Store} (h0 : ∀ f, EncFileMap C page K (keys f) (EncWorld.dir ⟨start names inodes, n0⟩ f) (S0 f))
    {es : List (WEv Bytes)} {s : EncWorld} {rs : List WRes} (hrun : EncWorld.run (encProcess C page fileOf dirOk) keys ⟨start names inodes, n0⟩ es = some (s, rs))
    (hok : ∀ e ∈ es, e.EncOk page) (hcalm : EncWorld.CalmRun (encProcess C page fileOf dirOk) keys ⟨start names inodes, n0⟩ es)
    (hroom : page * (K + es.length) + 8 < 2 ^ 64) (hctr : K + es.length < 2 ^ 32 - 1) (f : Nat) {rand : Bytes} (hrand : rand.length = 11)
    {left : Option Bytes} (hleft : left = s.nonces f ∨ s.w.fileAt f = none) :
    ∃ m x, m ≤ (encCallsOn fileOf f es).length ∧ openEnc C page (keys f) rand { s.dir f with nonceFile := left } = some x ∧
      x.Shows ((S0 f).run ((encCallsOn fileOf f es).take m)) := by
  obtain ⟨_, h2⟩ := encBase_process h8 h32 hkeys hg h0 hrun hok hcalm hroom hctr
  obtain ⟨k, hk⟩ := Option.isSome_iff_exists.1 (hkeys f)
  obtain ⟨m, hm, hgf⟩ := (h2.base.file f).at_any_time (i := openIdx keys s.nonces f rand)
    (fun h => ⟨rand, hrand, by rw [openIdx, openIdx, h2.nonces.unused f h]⟩) (fun hf => encBase_next h2 hrand hf)
  have hgf' : GoodFile (encEnv C page h8 True) ((encEnv C page h8 True).codecs (k, initNonce left rand)) (K + (encCallsOn fileOf f es).length)
      ((s.w.fileAt f).getD []) ((S0 f).run ((encCallsOn fileOf f es).take m)) := by
    rcases hleft with rfl | hnone
    · rw [openIdx, hk] at hgf; exact hgf
    · exact hgf.nil_any (by rw [hnone]; rfl)
  obtain ⟨x, hx, hd, _⟩ := Inst.dinv_open hgf'
  refine ⟨m, x, hm, ?_, shows_of_view hx (by simpa [Store.run] using hd.kvView)⟩
  simp only [openEnc, encryptorInit, hk]
  exact hx

/-- **C29**, what is true with the `encryption` feature: a handle made with one spelling sees every call made through handles with any other spelling of
the same directory, if the stores of those have finished closing when it is made.  Missing from C29: handles with different spellings in use at the same time
(`C29_refuted`, `C29_refuted_always`). -/
theorem C29_encrypted_partial {C : Cipher} {page K : Nat} (h8 : 8 ≤ page) (h32 : page < 2 ^ 32) {fileOf : String → Nat} {dirOk : String → Bool} {keys : Nat → String}
    (hkeys : ∀ f, (decodeKey (keys f)).isSome = true) {names : Nat → Option Nat} {inodes : List Bytes} (hg : GoodNames names inodes)
    {n0 : Nat → Option Bytes} {S0 : Nat → Store} (h0 : ∀ f, EncFileMap C page K (keys f) (EncWorld.dir ⟨start names inodes, n0⟩ f) (S0 f))
    {es : List (WEv Bytes)} {s : EncWorld} {rs : List WRes} (hrun : EncWorld.run (encProcess C page fileOf dirOk) keys ⟨start names inodes, n0⟩ es = some (s, rs))
    (hok : ∀ e ∈ es, e.EncOk page) (hcalm : EncWorld.CalmRun (encProcess C page fileOf dirOk) keys ⟨start names inodes, n0⟩ es)
    (hroom : page * (K + es.length) + 8 < 2 ^ 64) (hctr : K + es.length < 2 ^ 32 - 1) (hpo : s.w.poisoned = false) {dir : String} (hdir : dirOk dir = true)
    (hclosed : ∀ (o : Nat) (ob : Obj (Bytes × Bytes)), s.w.objs[o]? = some ob → fileOf ob.dir = fileOf dir → ob.inst.closedOk) {rand : Bytes} (hrand : rand.length = 11) :
    ∃ s' x, s.step (encProcess C page fileOf dirOk) keys (.create dir rand) = some (s', .handle s.w.handles.length) ∧ s'.w.store? s.w.handles.length = some x ∧
      x.phase = .idle ∧ x.Shows ((S0 (fileOf dir)).run (encCallsOn fileOf (fileOf dir) es)) := by
  obtain ⟨_, h2⟩ := encBase_process h8 h32 hkeys hg h0 hrun hok hcalm hroom hctr
  have R := h2.base.reg
  obtain ⟨x, hx, hd, _⟩ := Inst.dinv_open ((h2.base.file (fileOf dir)).at_rest hclosed (h2.nonces.keyed h2.base hclosed hrand))
  have hu : s.w.upgrade dir = none := by
    cases hu : s.w.upgrade dir with
    | none => rfl
    | some o =>
      exfalso
      obtain ⟨hm, hst⟩ := upgrade_eq hu
      obtain ⟨ob, hob, hd⟩ := R.mapOk hm
      have := (hclosed o ob hob (by rw [hd])).1
      exact hst ((R.closed hob).1 this)
  have hcont := touch_content R page (fileOf dir)
  have hidle : x.phase = .idle := by
    unfold Inst.openAt at hx
    split at hx
    · cases hx
    · injection hx with hx; subst hx; rfl
  obtain ⟨t1, t2, t3, t4⟩ := touch_objs s.w page (fileOf dir)
  have hop : Inst.openAt (encrypted C) (openIdx keys s.nonces (fileOf dir) rand) page ((s.w.touch page (fileOf dir)).1.content (s.w.touch page (fileOf dir)).2) = some x := by
    rw [show (s.w.touch page (fileOf dir)).1.content (s.w.touch page (fileOf dir)).2 = _ from hcont, openAt_configNew]; exact hx
  have hkey : (encProcess C page fileOf dirOk).keyOk (openIdx keys s.nonces (fileOf dir) rand) = true := keyOk_openIdx hkeys _ _
  have hstep : s.w.step (encProcess C page fileOf dirOk) (.create dir (openIdx keys s.nonces (fileOf dir) rand)) =
      some (({ (s.w.touch page (fileOf dir)).1 with
        objs := (s.w.touch page (fileOf dir)).1.objs ++ [{ inst := x, dir := dir, inode := (s.w.touch page (fileOf dir)).2 }]
        map := (s.w.touch page (fileOf dir)).1.map.insert dir (s.w.touch page (fileOf dir)).1.objs.length } : World (Bytes × Bytes)).addHandle dir
          (s.w.touch page (fileOf dir)).1.objs.length) := by
    simp only [World.step, hpo, hu, hkey]
    simp only [encProcess, hdir, hop]
    rfl
  have hstep' : ∀ p : World (Bytes × Bytes) × WRes, s.w.step (encProcess C page fileOf dirOk) (.create dir (openIdx keys s.nonces (fileOf dir) rand)) = some p →
      s.step (encProcess C page fileOf dirOk) keys (.create dir rand) =
        some (⟨p.1, noncesAfter (encProcess C page fileOf dirOk) keys s.nonces s.w p.1 (.create dir rand)⟩, p.2) := by
    intro p hp
    simp only [EncWorld.step, WEv.at, WEv.openIdx]
    rw [show (encProcess C page fileOf dirOk).fileOf dir = fileOf dir from rfl, hp]
  obtain ⟨p, hp, hp1, hp2⟩ : ∃ p : World (Bytes × Bytes) × WRes,
      s.w.step (encProcess C page fileOf dirOk) (.create dir (openIdx keys s.nonces (fileOf dir) rand)) = some p ∧
      p.2 = .handle s.w.handles.length ∧ p.1.store? s.w.handles.length = some x :=
    ⟨_, hstep, by simp [World.addHandle, t2], by simp [World.addHandle, store?, t1, t2]⟩
  exact ⟨_, x, by rw [hstep' p hp, hp1], hp2, hidle, shows_of_view hx (by simpa [Store.run] using hd.kvView)⟩

/-- **C30**, what is true with the `encryption` feature: if the drop of the last handle has finished (its background thread has been waited for) when `new`
runs, the new handle sees every call made before.  Missing from C30: a `new` that overlaps the drop (`C30_refuted`). -/
theorem C30_encrypted_partial {C : Cipher} {page K : Nat} (h8 : 8 ≤ page) (h32 : page < 2 ^ 32) {fileOf : String → Nat} {dirOk : String → Bool} {keys : Nat → String}
    (hkeys : ∀ f, (decodeKey (keys f)).isSome = true) {names : Nat → Option Nat} {inodes : List Bytes} (hg : GoodNames names inodes)
    {n0 : Nat → Option Bytes} {S0 : Nat → Store} (h0 : ∀ f, EncFileMap C page K (keys f) (EncWorld.dir ⟨start names inodes, n0⟩ f) (S0 f))
    {es : List (WEv Bytes)} {s : EncWorld} {rs : List WRes} (hrun : EncWorld.run (encProcess C page fileOf dirOk) keys ⟨start names inodes, n0⟩ es = some (s, rs))
    (hok : ∀ e ∈ es, e.EncOk page) (hcalm : EncWorld.CalmRun (encProcess C page fileOf dirOk) keys ⟨start names inodes, n0⟩ es)
    (hroom : page * (K + es.length) + 8 < 2 ^ 64) (hctr : K + es.length < 2 ^ 32 - 1) (hpo : s.w.poisoned = false) {dir : String} (hdir : dirOk dir = true)
    (hsame : ∀ d, fileOf d = fileOf dir → d = dir)
    (hclosed : ∀ (o : Nat) (ob : Obj (Bytes × Bytes)), s.w.objs[o]? = some ob → ob.dir = dir → ob.inst.closedOk) {rand : Bytes} (hrand : rand.length = 11) :
    ∃ s' x, s.step (encProcess C page fileOf dirOk) keys (.create dir rand) = some (s', .handle s.w.handles.length) ∧ s'.w.store? s.w.handles.length = some x ∧
      x.phase = .idle ∧ x.Shows ((S0 (fileOf dir)).run (encCallsOn fileOf (fileOf dir) es)) :=
  C29_encrypted_partial h8 h32 hkeys hg h0 hrun hok hcalm hroom hctr hpo hdir (fun o ob ho hf => hclosed o ob ho (hsame _ hf)) hrand

theorem encRun_world {S : Sys (Bytes × Bytes)} {keys : Nat → String} (es : List (WEv Bytes)) : ∀ {s s' : EncWorld} {rs : List WRes},
    s.run S keys es = some (s', rs) → ∃ es', s.w.run S es' = some (s'.w, rs) ∧ es'.length = es.length ∧ ∀ (n : Nat) (e : WEv Bytes), es[n]? = some e → ∃ i, es'[n]? = some (e.at i) := by
  induction es with
  | nil =>
    intro s s' rs h
    simp only [EncWorld.run, Option.some.injEq, Prod.mk.injEq] at h
    obtain ⟨rfl, rfl⟩ := h
    exact ⟨[], rfl, rfl, by simp⟩
  | cons e es ih =>
    intro s s' rs h
    simp only [EncWorld.run] at h
    split at h
    · cases h
    rename_i s1 r hst
    split at h
    · cases h
    rename_i s2 rs2 hr
    simp only [Option.some.injEq, Prod.mk.injEq] at h
    obtain ⟨rfl, rfl⟩ := h
    unfold EncWorld.step at hst
    split at hst
    · cases hst
    rename_i w1 r1 hw
    injection hst with hst; injection hst with h1 h2; subst h1 h2
    obtain ⟨es', h3, hlen, h4⟩ := ih hr
    refine ⟨e.at (e.openIdx S keys s.nonces s.w) :: es', ?_, by simp [hlen], fun n e' he => ?_⟩
    · simp only [World.run, hw]; rw [show w1.run S es' = _ from h3]
    cases n with
    | zero =>
      simp only [List.getElem?_cons_zero, Option.some.injEq] at he
      subst he
      exact ⟨_, rfl⟩
    | succ n => exact h4 n e' (by simpa using he)

/-- **C31 is false of this program** with the `encryption` feature also for a key that is not 32 hexadecimal digits (and hence, `C49_documented_length_panics`, for
one of the documented length): the `new` that gets it, on a directory not open, panics, and from then on so does every `new`, with whatever key, and every drop of a
handle, of whatever directory. -/
theorem C31_encrypted_refuted {C : Cipher} {page : Nat} {fileOf : String → Nat} {dirOk : String → Bool} {keys : Nat → String} {s : EncWorld} {dir : String} {rand : Bytes}
    (hp : s.w.poisoned = false) (hu : s.w.upgrade dir = none) (hdir : dirOk dir = true) (hkey : decodeKey (keys (fileOf dir)) = none) :
    ∃ s1, s.step (encProcess C page fileOf dirOk) keys (.create dir rand) = some (s1, .panic) ∧ s1.nonces = s.nonces ∧
      ∀ (keys' : Nat → String) (es : List (WEv Bytes)) (s2 : EncWorld) (rs : List WRes), s1.run (encProcess C page fileOf dirOk) keys' es = some (s2, rs) →
        ∀ (n : Nat) (e : WEv Bytes), es[n]? = some e → ((∃ d, e = .lookup d) ∨ (∃ d r, e = .create d r) ∨ (∃ k, e = .drop1 k)) →
          rs[n]? = some .panic := by
  have hko : (encProcess C page fileOf dirOk).keyOk (openIdx keys s.nonces (fileOf dir) rand) = false := by
    simp [encProcess, openIdx, hkey]
  have h : s.w.step (encProcess C page fileOf dirOk) (.create dir (openIdx keys s.nonces (fileOf dir) rand)) =
      some ({ (s.w.touch page (fileOf dir)).1 with poisoned := true }, .panic) := by
    simp only [World.step, hp, hu, hko]
    simp only [encProcess, hdir]
    rfl
  refine ⟨⟨{ (s.w.touch page (fileOf dir)).1 with poisoned := true }, s.nonces⟩, ?_, rfl, ?_⟩
  · simp only [EncWorld.step, WEv.at, WEv.openIdx]
    rw [show (encProcess C page fileOf dirOk).fileOf dir = fileOf dir from rfl, h]
    simp [noncesAfter, show (encProcess C page fileOf dirOk).fileOf dir = fileOf dir from rfl, hkey]
  · intro keys' es s2 rs hrun n e he hcase
    obtain ⟨es', h1, _, h2⟩ := encRun_world es hrun
    obtain ⟨i, hi⟩ := h2 n e he
    refine C31_refuted_any h h1 hi ?_
    rcases hcase with ⟨d, rfl⟩ | ⟨d, r, rfl⟩ | ⟨k, rfl⟩
    · exact .inl ⟨d, rfl⟩
    · exact .inr (.inl ⟨d, i, rfl⟩)
    · exact .inr (.inr ⟨k, rfl⟩)

/-- "d" and "./d" name one directory, everything else another. -/
def spelled : String → Nat := fun d => if d = "d" ∨ d = "./d" then 0 else 1

/-- Directory 1 has a key of the documented length (16 digits): opening it after "d" leaves no directory to be opened. -/
example : decodeKey "88C51C536176AD8A" = none ∧
    ((EncWorld.run (encProcess toy 80 spelled fun _ => true) (fun f => if f = 0 then testKey else "88C51C536176AD8A") ⟨start (fun _ => none) [], fun _ => none⟩
      [.create "d" (rnd 1), .create "e" (rnd 2), .lookup "d", .create "d" (rnd 3), .drop1 0]).map fun p => (p.2, p.1.nonces 0, p.1.nonces 1)) =
      some ([.handle 0, .panic, .panic, .panic, .panic], some (rnd 1), none) := by
  refine ⟨?_, ?_⟩ <;> decide +kernel

/-- A decision procedure for `EncWorld.CalmRun`. -/
def encCalmRunB (S : Sys (Bytes × Bytes)) (keys : Nat → String) : EncWorld → List (WEv Bytes) → Bool
  | _, [] => true
  | s, e :: es =>
    (match e with
      | .create dir _ => s.w.upgrade dir != none || s.w.objs.all fun ob =>
          S.fileOf ob.dir != S.fileOf dir || (ob.inst.phase == .closed && ob.inst.lp.io == .exited)
      | _ => true) &&
    match s.step S keys e with
    | none => true
    | some (s', _) => encCalmRunB S keys s' es

theorem encCalmRun_of {S : Sys (Bytes × Bytes)} {keys : Nat → String} : ∀ (es : List (WEv Bytes)) {s : EncWorld}, encCalmRunB S keys s es = true →
    EncWorld.CalmRun S keys s es := by
  intro es
  induction es with
  | nil => intro s _; trivial
  | cons e es ih =>
    intro s h
    unfold encCalmRunB at h
    rw [Bool.and_eq_true] at h
    refine ⟨?_, ?_⟩
    · rintro dir rand rfl hu o ob ho hf
      have h1 := h.1
      simp only [Bool.or_eq_true, List.all_eq_true, bne_iff_ne, ne_eq, Bool.and_eq_true, beq_iff_eq] at h1
      rcases h1 with h1 | h1
      · exact absurd hu h1
      · rcases h1 ob (List.mem_of_getElem? ho) with h1 | h1
        · exact absurd hf h1
        · exact ⟨h1.1, h1.2⟩
    · intro s' r hst
      have h2 := h.2
      rw [hst] at h2
      exact ih h2

/-- Puts through "d" and "e", a removal, a `clear_data` of "e" and a put after it; everything on "d" is closed. -/
def encWorldDemo : List (WEv Bytes) :=
  [.create "d" (rnd 1), .create "e" (rnd 2), .lookup "d",
   .call 0 "d" (.put "k" ⟨0, [0, 0, 0, 7]⟩), .cont 0 (rnd 3), .call 1 "e" (.put "k" ⟨0, [0, 0, 0, 8]⟩), .cont 1 (rnd 4), .cont 1 (rnd 5), .cont 0 (rnd 6),
   .call 2 "d" (.put "l" ⟨0, [0, 0, 0, 9]⟩), .cont 0 (rnd 7), .cont 0 (rnd 8), .call 0 "d" (.delete "k"), .cont 0 (rnd 9), .cont 0 (rnd 10)] ++
  List.replicate 6 (.io 0 id) ++
  [.call 1 "e" .clear, .cont 1 (rnd 11), .cont 1 (rnd 12), .cont 1 (rnd 13)] ++ List.replicate 9 (.io 1 id) ++
  [.cont 1 (rnd 14), .cont 1 (rnd 15), .call 1 "e" (.put "m" ⟨0, [0, 0, 0, 5]⟩), .cont 1 (rnd 16), .cont 1 (rnd 17),
   .drop1 0, .drop1 2, .drop2 0, .drop2 2] ++ List.replicate 7 (.io 0 id)

/-- What `get::<i32>` returns through a handle of the next one to make a handle with `dir`. -/
def encAfter (es : List (WEv Bytes)) (dir : String) (k : String) : Option (Out Int) :=
  match EncWorld.run (encProcess toy 80 spelled fun _ => true) (fun _ => testKey) ⟨start (fun _ => none) [], fun _ => none⟩ (es ++ [.create dir (rnd 99)]) with
  | some (s, _) => (s.w.store? (s.w.handles.length - 1)).map fun x => x.getAs k Ty.i32.token fun b => .ok (beVal b)
  | none => none

/-- The hypotheses of the theorems above are met by this history, with a handle made with "./d" afterwards; and what it then shows. -/
example : (∀ _f : Nat, (decodeKey testKey).isSome = true) ∧ GoodNames (fun _ => none) [] ∧
    (∀ f, EncFileMap toy 80 0 testKey (EncWorld.dir ⟨start (fun _ => none) [], fun _ => none⟩ f) Store.empty) ∧
    (∃ s rs, EncWorld.run (encProcess toy 80 spelled fun _ => true) (fun _ => testKey) ⟨start (fun _ => none) [], fun _ => none⟩ encWorldDemo = some (s, rs) ∧
      s.w.poisoned = false ∧ s.nonces 0 = some (rnd 1) ∧ s.nonces 1 = some (rnd 15) ∧
      (∀ (o : Nat) (ob : Obj (Bytes × Bytes)), s.w.objs[o]? = some ob → spelled ob.dir = spelled "./d" → ob.inst.closedOk)) ∧
    (∀ e ∈ encWorldDemo, e.EncOk 80) ∧
    EncWorld.CalmRun (encProcess toy 80 spelled fun _ => true) (fun _ => testKey) ⟨start (fun _ => none) [], fun _ => none⟩ encWorldDemo ∧
    80 * (0 + encWorldDemo.length) + 8 < 2 ^ 64 ∧ 0 + encWorldDemo.length < 2 ^ 32 - 1 ∧
    encAfter encWorldDemo "./d" "k" = some (.err .keyNotFound) ∧ encAfter encWorldDemo "./d" "l" = some (.ok 9) ∧
    encAfter encWorldDemo "e" "k" = some (.err .keyNotFound) ∧ encAfter encWorldDemo "e" "m" = some (.ok 5) := by
  have hk : (decodeKey testKey).isSome = true := by rw [decode_testKey]; rfl
  refine ⟨fun _ => hk, .none, fun _ => encFileMap_empty (by decide) hk, ?_, ?_, encCalmRun_of _ (by decide +kernel), by decide, by decide,
    by decide +kernel, by decide +kernel, by decide +kernel, by decide +kernel⟩
  · have hc : (match EncWorld.run (encProcess toy 80 spelled fun _ => true) (fun _ => testKey) ⟨start (fun _ => none) [], fun _ => none⟩ encWorldDemo with
        | some (s, _) => !s.w.poisoned && (s.nonces 0 == some (rnd 1)) && (s.nonces 1 == some (rnd 15)) &&
            s.w.objs.all fun ob => spelled ob.dir != spelled "./d" || (ob.inst.phase == .closed && ob.inst.lp.io == .exited)
        | none => false) = true := by decide +kernel
    split at hc
    · rename_i s rs hr
      simp only [Bool.and_eq_true, Bool.or_eq_true, List.all_eq_true, bne_iff_ne, ne_eq, beq_iff_eq, Bool.not_eq_true'] at hc
      obtain ⟨⟨⟨h1, h2⟩, h3⟩, h4⟩ := hc
      refine ⟨s, rs, hr, h1, h2, h3, fun o ob ho hf => ?_⟩
      rcases h4 ob (List.mem_of_getElem? ho) with h | h
      · exact absurd hf h
      · exact ⟨h.1, h.2⟩
    · cases hc
  · have hc : ∀ e : WEv Bytes, (match e with
        | .call _ _ (.put key e) => decide (encRecordSize key e.token e.bytes ≤ 80)
        | .call _ _ (.delete key) => decide (encRecordSize key deletedToken [] ≤ 80)
        | .io _ _ => false
        | .create _ rand => rand.length == 11
        | .cont _ rand => rand.length == 11
        | _ => true) = true → e.EncOk 80 := by
      intro e h
      cases e with
      | call k d m => cases m <;> first | trivial | simpa [WEv.EncOk] using h
      | io o ord => cases h
      | create d rand => simpa [WEv.EncOk] using h
      | cont o rand => simpa [WEv.EncOk] using h
      | _ => trivial
    have hio : ∀ o n, ∀ e ∈ List.replicate n (WEv.io o id : WEv Bytes), e.EncOk 80 := by
      intro o n e he
      rw [List.mem_replicate] at he
      obtain ⟨_, rfl⟩ := he
      exact fun l => List.Perm.refl l
    unfold encWorldDemo
    simp only [List.forall_mem_append]
    refine ⟨⟨⟨⟨⟨?_, hio _ _⟩, ?_⟩, hio _ _⟩, ?_⟩, hio _ _⟩
    all_goals
      simp only [List.forall_mem_cons]
      simp only [List.not_mem_nil, false_implies, implies_true, and_true]
      (repeat' constructor) <;> exact hc _ (by decide +kernel)

end Mmkv
