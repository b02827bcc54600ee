import Verif.Model.EncWorld
import Verif.Props.Reopen
import Verif.Props.EncLife
/-! In a process with encryption every store is opened with the key of its directory and the nonce its file was written with. -/

namespace Mmkv
open Spec World

theorem Inst.keep_step {ι : Type} {codecs : ι → Codec} {s s' : Inst ι} {e : Ev ι} {r : Option (Out Unit)}
    (h : Inst.step codecs s e = some (s', r)) (hp : ∀ i, e = .api i → s.phase ≠ .clrOpen) :
    s'.idx = s.idx ∧ ((∀ o, e ≠ .io o) → s'.lp.cb.removed = s.lp.cb.removed) := by
  have hpush : ∀ j, (Looper.push s.lp j).cb = s.lp.cb := by intro j; unfold Looper.push; split <;> rfl
  have hsend : (Looper.send s.lp).1.cb = s.lp.cb := by
    unfold Looper.send; split
    · split <;> rfl
    · rfl
  have hquit : (Looper.quitSend s.lp).1.cb = s.lp.cb := by
    unfold Looper.quitSend; split
    · split <;> rfl
    · rfl
  cases e with
  | put k t bs =>
    simp only [Inst.step] at h
    repeat' split at h
    all_goals first | (injection h with h; injection h with h1 h2; subst h1; exact ⟨rfl, fun _ => rfl⟩) | cases h
  | delete k =>
    simp only [Inst.step] at h
    repeat' split at h
    all_goals first | (injection h with h; injection h with h1 h2; subst h1; exact ⟨rfl, fun _ => rfl⟩) | cases h
  | clear =>
    simp only [Inst.step] at h
    repeat' split at h
    all_goals first | (injection h with h; injection h with h1 h2; subst h1; exact ⟨rfl, fun _ => rfl⟩) | cases h
  | drop =>
    simp only [Inst.step] at h
    repeat' split at h
    all_goals first | (injection h with h; injection h with h1 h2; subst h1; exact ⟨rfl, fun _ => rfl⟩) | cases h
  | io o =>
    simp only [Inst.step] at h
    split at h
    · cases h
    · injection h with h; injection h with h1 h2; subst h1
      exact ⟨rfl, fun hn => absurd rfl (hn o)⟩
  | api i =>
    simp only [Inst.step] at h
    cases hph : s.phase <;> simp only [hph] at h
    case idle => cases h
    case closed => cases h
    case push j => injection h with h; injection h with h1 h2; subst h1; exact ⟨rfl, fun _ => by simp only [hpush]⟩
    case send => injection h with h; injection h with h1 h2; subst h1; exact ⟨rfl, fun _ => by simp only [hsend]⟩
    case clrPush => injection h with h; injection h with h1 h2; subst h1; exact ⟨rfl, fun _ => by simp only [hpush]⟩
    case clrSend => split at h <;> (injection h with h; injection h with h1 h2; subst h1; exact ⟨rfl, fun _ => by simp only [hsend]⟩)
    case clrQuit => split at h <;> (injection h with h; injection h with h1 h2; subst h1; exact ⟨rfl, fun _ => by simp only [hquit]⟩)
    case clrJoin =>
      repeat' split at h
      all_goals first | (injection h with h; injection h with h1 h2; subst h1; exact ⟨rfl, fun _ => rfl⟩) | cases h
    case clrOpen => exact absurd hph (hp i rfl)

/-- `o` is the last store opened on `f`. -/
def LastOn {ι : Type} (S : Sys ι) (w : World ι) (f o : Nat) : Prop :=
  ∀ (p : Nat) (x : Obj ι), w.objs[p]? = some x → S.fileOf x.dir = f → p ≤ o

/-- The nonce files go with the stores. -/
structure NInv (S : Sys (Bytes × Bytes)) (keys : Nat → String) (n0 n : Nat → Option Bytes) (w : World (Bytes × Bytes)) : Prop where
  unused : ∀ f, (∀ (o : Nat) (ob : Obj (Bytes × Bytes)), w.objs[o]? = some ob → S.fileOf ob.dir ≠ f) → n f = n0 f
  last : ∀ (o : Nat) (ob : Obj (Bytes × Bytes)), w.objs[o]? = some ob → LastOn S w (S.fileOf ob.dir) o →
    decodeKey (keys (S.fileOf ob.dir)) = some ob.inst.idx.1 ∧ ob.inst.idx.2.length = nonceLen ∧
      n (S.fileOf ob.dir) = if ob.inst.lp.cb.removed then none else some ob.inst.idx.2

theorem initNonce_some {n rand : Bytes} (h : n.length = nonceLen) : initNonce (some n) rand = n := by
  simp [initNonce, h]

/-- Keys and nonces allowed at the start: the key of the directory, and the nonce in its nonce file or, if it has none, any. -/
def StartIdx (keys : Nat → String) (n0 : Nat → Option Bytes) (f : Nat) (i : Bytes × Bytes) : Prop :=
  ∃ rand : Bytes, rand.length = nonceLen ∧ i = openIdx keys n0 f rand

theorem decodeKey_length {key : String} {k : Bytes} (h : decodeKey key = some k) : k.length = 16 := by
  unfold decodeKey at h
  split at h
  · cases h
  · split at h
    · injection h with h; subst h; assumption
    · cases h

/-- The random bytes of an event are as many as were asked for. -/
def WEv.RandOk : WEv Bytes → Prop
  | .create _ rand => rand.length = nonceLen
  | .cont _ rand => rand.length = nonceLen
  | _ => True

/-- What `openIdx` gives is right for the file. -/
theorem NInv.keyed {E : Env (Bytes × Bytes)} {C : Cipher} {page : Nat} {fileOf : String → Nat} {dirOk : String → Bool} {keys : Nat → String}
    {n0 n : Nat → Option Bytes} {K : Nat} {S0 : Nat → Store} {U : String → Prop} {w : World (Bytes × Bytes)} {cs : Nat → List Mutation} (hn : NInv (encProcess C page fileOf dirOk) keys n0 n w)
    (hb : Base E (encProcess C page fileOf dirOk) (StartIdx keys n0) K S0 U w cs) {f : Nat}
    (hcalm : ∀ (o : Nat) (ob : Obj (Bytes × Bytes)), w.objs[o]? = some ob → fileOf ob.dir = f → ob.inst.closedOk) {rand : Bytes} (hr : rand.length = nonceLen) :
    Keyed (encProcess C page fileOf dirOk) (StartIdx keys n0) w f (openIdx keys n f rand) := by
  refine ⟨fun h => ⟨rand, hr, by rw [openIdx, openIdx, hn.unused f h]⟩, fun o ob ho hf hl => ?_⟩
  subst hf
  obtain ⟨h1, h2, h3⟩ := hn.last o ob ho hl
  have hnr : ob.inst.lp.cb.removed = false := by
    rcases hb.file ((encProcess C page fileOf dirOk).fileOf ob.dir) with ⟨g, _⟩ | ⟨p, x, pre, post, g1, g2, g3, g4, g5, g6, g7⟩
    · exact absurd rfl (g o ob ho)
    · by_cases hop : o = p
      · subst hop
        rw [ho] at g1; injection g1 with g1; subst g1
        exact (Inst.disk_closed g5 (hcalm o ob ho rfl)).1
      · have := (g3 o ob hop ho rfl).2
        have := hl p x g1 g2
        omega
  rw [hnr] at h3
  rw [openIdx, h1, h3]
  simp only [Bool.false_eq_true, if_false, initNonce_some h2, Option.getD_some]

section
variable {E : Env (Bytes × Bytes)} {C : Cipher} {page : Nat} {fileOf : String → Nat} {dirOk : String → Bool} {keys : Nat → String}
  {n0 n : Nat → Option Bytes} {K : Nat} {S0 : Nat → Store} {U : String → Prop} {w w' : World (Bytes × Bytes)} {cs : Nat → List Mutation}

theorem keyOk_openIdx (hkeys : ∀ f, (decodeKey (keys f)).isSome = true) (f : Nat) (rand : Bytes) :
    (encProcess C page fileOf dirOk).keyOk (openIdx keys n f rand) = true := by
  obtain ⟨k, hk⟩ := Option.isSome_iff_exists.1 (hkeys f)
  simp [encProcess, openIdx, hk, decodeKey_length hk]

/-- A step of one store. -/
theorem ninv_stepped' {S : Sys (Bytes × Bytes)} {o : Nat} {ob : Obj (Bytes × Bytes)} {x0 : Obj (Bytes × Bytes)} {n' : Nat → Option Bytes}
    (hi : NInv S keys n0 n w) (hob : w.objs[o]? = some ob) (ho : w'.objs = w.objs.set o x0) (hdir : x0.dir = ob.dir)
    (hlast : LastOn S w (S.fileOf ob.dir) o)
    (hx0 : decodeKey (keys (S.fileOf ob.dir)) = some x0.inst.idx.1 ∧ x0.inst.idx.2.length = nonceLen ∧
      n' (S.fileOf ob.dir) = if x0.inst.lp.cb.removed then none else some x0.inst.idx.2)
    (hn : ∀ f, f ≠ S.fileOf ob.dir → n' f = n f) : NInv S keys n0 n' w' := by
  have hback : ∀ {p : Nat} {x : Obj (Bytes × Bytes)}, w'.objs[p]? = some x → ∃ y, w.objs[p]? = some y ∧ y.dir = x.dir ∧ (p ≠ o → y = x) := by
    intro p x hx
    rw [ho] at hx
    rcases getElem?_set_cases hx with ⟨rfl, rfl⟩ | ⟨hne, hx⟩
    · exact ⟨ob, hob, hdir.symm, fun h => absurd rfl h⟩
    · exact ⟨x, hx, rfl, fun _ => rfl⟩
  have hfwd : ∀ {p : Nat} {y : Obj (Bytes × Bytes)}, w.objs[p]? = some y → ∃ x, w'.objs[p]? = some x ∧ x.dir = y.dir := by
    intro p y hy
    by_cases hp : p = o
    · subst hp
      rw [hob] at hy; injection hy with hy; subst hy
      exact ⟨x0, by rw [ho, List.getElem?_set_self (getElem?_lt hob)], hdir⟩
    · exact ⟨y, by rw [ho, List.getElem?_set_ne (fun e => hp e.symm)]; exact hy, rfl⟩
  constructor
  · intro f hf
    have hne : f ≠ S.fileOf ob.dir := by
      rintro rfl
      obtain ⟨x, hx, hd⟩ := hfwd hob
      exact hf o x hx (by rw [hd])
    rw [hn f hne]
    refine hi.unused f fun p y hy hyf => ?_
    obtain ⟨x, hx, hd⟩ := hfwd hy
    exact hf p x hx (by rw [hd]; exact hyf)
  · intro p x hx hl
    obtain ⟨y, hy, hd, hsame⟩ := hback hx
    have hl' : LastOn S w (S.fileOf y.dir) p := by
      intro q z hz hzf
      obtain ⟨z', hz', hdz⟩ := hfwd hz
      exact hl q z' hz' (by rw [hdz, hzf, hd])
    by_cases hp : p = o
    · subst hp
      rw [hob] at hy; injection hy with hy; subst hy
      have hxe : x = x0 := by
        rw [ho, List.getElem?_set_self (getElem?_lt hob)] at hx; injection hx with hx; exact hx.symm
      subst hxe
      rw [hdir]; exact hx0
    · have := hsame hp; subst this
      have hne : S.fileOf y.dir ≠ S.fileOf ob.dir := by
        intro hf
        have h1 := hlast p y hy hf
        have h2 := hl' o ob hob hf.symm
        omega
      obtain ⟨h1, h2, h3⟩ := hi.last p y hy hl'
      exact ⟨h1, h2, by rw [hn _ hne]; exact h3⟩

theorem ninv_stepped {S : Sys (Bytes × Bytes)} {o : Nat} {ob : Obj (Bytes × Bytes)} {s' : Inst (Bytes × Bytes)} {c : Option Nat} {n' : Nat → Option Bytes}
    (hi : NInv S keys n0 n w) (hob : w.objs[o]? = some ob) (ho : w'.objs = w.objs.set o { ob with inst := s', caller := c })
    (hidx : s'.idx = ob.inst.idx) (hlast : LastOn S w (S.fileOf ob.dir) o)
    (hn : ∀ f, n' f = if f = S.fileOf ob.dir then (if s'.lp.cb.removed then none else some ob.inst.idx.2) else n f) : NInv S keys n0 n' w' := by
  obtain ⟨h1, h2, _⟩ := hi.last o ob hob hlast
  exact ninv_stepped' hi hob ho rfl hlast ⟨by simp only [hidx]; exact h1, by simp only [hidx]; exact h2, by rw [hn, if_pos rfl]; simp only [hidx]⟩
    (fun f hf => by rw [hn, if_neg hf])

/-- The store that takes a step is the last one on its file. -/
theorem last_of_step {S : Sys (Bytes × Bytes)} {J : Nat → Bytes × Bytes → Prop} (hb : Base E S J K S0 U w cs) {o : Nat} {ob : Obj (Bytes × Bytes)} (hob : w.objs[o]? = some ob)
    (hnc : ¬ ob.inst.closedOk) : LastOn S w (S.fileOf ob.dir) o ∧ ∃ pre post, DInv E ((S0 (S.fileOf ob.dir)).run pre) (K + pre.length) post ob.inst ∧
      w.names (S.fileOf ob.dir) = if ob.inst.lp.cb.removed then none else some ob.inode := by
  rcases hb.file (S.fileOf ob.dir) with ⟨g, _⟩ | ⟨p, x, pre, post, g1, g2, g3, g4, g5, g6, g7⟩
  · exact absurd rfl (g o ob hob)
  · by_cases hop : o = p
    · subst hop
      rw [hob] at g1; injection g1 with g1; subst g1
      refine ⟨fun q y hy hyf => ?_, pre, post, g5, g7⟩
      by_cases hq : q = o
      · omega
      · exact Nat.le_of_lt (g3 q y hq hy hyf).2
    · exact absurd (g3 o ob hop hob rfl).1 hnc

theorem ninv_same {S : Sys (Bytes × Bytes)} (hi : NInv S keys n0 n w) (ho : w'.objs = w.objs) : NInv S keys n0 n w' :=
  ⟨fun f hf => hi.unused f (by rw [← ho]; exact hf), fun o ob hob hl => hi.last o ob (by rw [← ho]; exact hob) (by unfold LastOn; rw [← ho]; exact hl)⟩

theorem closedOk_no_step {codecs : Bytes × Bytes → Codec} {s : Inst (Bytes × Bytes)} {f : Bytes} {e : Ev (Bytes × Bytes)} {x : Inst (Bytes × Bytes) × Option (Out Unit)}
    (h : Inst.step codecs (s.withFile f) e = some x) : ¬ s.closedOk := fun hc => by rw [Inst.closedOk_stuck hc] at h; cases h

/-- Steps that neither open nor remove. -/
theorem ninv_plain {S : Sys (Bytes × Bytes)} {J : Nat → Bytes × Bytes → Prop} {o : Nat} {ob : Obj (Bytes × Bytes)} {s' : Inst (Bytes × Bytes)} {c : Option Nat}
    {ev : Ev (Bytes × Bytes)} {x : Option (Out Unit)} (hi : NInv S keys n0 n w) (hb : Base E S J K S0 U w cs) (hob : w.objs[o]? = some ob)
    (hs : Inst.step S.codecs (ob.inst.withFile (w.content ob.inode)) ev = some (s', x)) (ho : w'.objs = w.objs.set o { ob with inst := s', caller := c })
    (hev : ∀ i, ev = .api i → ob.inst.phase ≠ .clrOpen) (hio : ∀ o, ev ≠ .io o) : NInv S keys n0 n w' := by
  obtain ⟨hl, _⟩ := last_of_step hb hob (closedOk_no_step hs)
  obtain ⟨h1, h2⟩ := Inst.keep_step hs hev
  refine ninv_stepped hi hob ho h1 hl fun f => ?_
  split
  · rename_i hf; subst hf
    rw [h2 hio, (hi.last o ob hob hl).2.2]; rfl
  · rfl

theorem reopen_objs {S : Sys (Bytes × Bytes)} {o : Nat} {ob : Obj (Bytes × Bytes)} {i : Bytes × Bytes} {x : Option (Out Unit)} (h : w.reopen S o ob i = some (w', x)) :
    ∃ s' x', (ob.inst.atName (w.fileAt (S.fileOf ob.dir))).reopenStep S i = some (s', x') ∧
      w'.objs = w.objs.set o { ob with inst := s', inode := (w.touch S.page (S.fileOf ob.dir)).2, caller := none } ∧ x' = x := by
  obtain ⟨t1, _, _, _⟩ := touch_objs w S.page (S.fileOf ob.dir)
  unfold reopen at h
  generalize w.touch S.page (S.fileOf ob.dir) = tw at h t1
  split at h
  · cases h
  rename_i s' x' hrs
  injection h with h; injection h with h1 h2
  exact ⟨s', x', hrs, by rw [← h1, ← t1], h2⟩

/-- One event of the process keeps the nonce files in step. -/
theorem ninv_step {e : WEv Bytes} {r : WRes} (hcod : E.codecs = encrypted C) (hpg : E.page = page) (hkeys : ∀ f, (decodeKey (keys f)).isSome = true)
    (hi : NInv (encProcess C page fileOf dirOk) keys n0 n w) (hb : Base E (encProcess C page fileOf dirOk) (StartIdx keys n0) K S0 U w cs) (hrand : e.RandOk)
    (hcalm : Calm (encProcess C page fileOf dirOk) w (e.at (e.openIdx (encProcess C page fileOf dirOk) keys n w)))
    (hst : w.step (encProcess C page fileOf dirOk) (e.at (e.openIdx (encProcess C page fileOf dirOk) keys n w)) = some (w', r)) (hnp : ∀ o rand, e = .cont o rand → ∀ x, r = .ret x → x = .ok ()) :
    NInv (encProcess C page fileOf dirOk) keys n0 (noncesAfter (encProcess C page fileOf dirOk) keys n w w' e) w' := by
  cases e with
  | lookup d =>
    cases step_moves hst with
    | quiet ho _ _ _ _ => exact ninv_same hi ho
    | stepped ha => cases ha
  | call k d m =>
    cases step_moves hst with
    | quiet ho _ _ _ _ => exact ninv_same hi ho
    | stepped ha hob hs ho _ _ =>
      cases ha
      refine ninv_plain hi hb hob hs ho ?_ ?_
      · intro i h; cases m <;> cases h
      · intro i h; cases m <;> cases h
  | drop1 k =>
    cases step_moves hst with
    | quiet ho _ _ _ _ => exact ninv_same hi ho
    | stepped ha => cases ha
  | drop2 k =>
    cases step_moves hst with
    | quiet ho _ _ _ _ => exact ninv_same hi ho
    | stepped ha hob hs ho _ _ =>
      cases ha
      exact ninv_plain hi hb hob hs ho (by simp) (by simp)
  | io o ord =>
    cases step_moves hst with
    | quiet ho _ _ _ _ =>
      have : noncesAfter (encProcess C page fileOf dirOk) keys n w w' (.io o ord) = n := by
        simp only [noncesAfter, ho]
        split
        · rename_i a b h1 h2
          rw [h1] at h2; injection h2 with h2; subst h2
          rw [if_neg]
          rintro ⟨h3, h4⟩; rw [h3] at h4; cases h4
        · rfl
      rw [this]
      exact ninv_same hi ho
    | @stepped _ _ _ ob s' c x ha hob hs ho _ _ =>
      cases ha
      obtain ⟨hl, pre, post, hd, _⟩ := last_of_step hb hob (closedOk_no_step hs)
      obtain ⟨h1, _⟩ := Inst.keep_step hs (by simp)
      have hmono := Inst.removed_mono hs (by simp)
      refine ninv_stepped hi hob ho h1 hl fun f => ?_
      have hob' : w'.objs[o]? = some { ob with inst := s', caller := c } := by rw [ho, List.getElem?_set_self (getElem?_lt hob)]
      simp only [noncesAfter, hob, hob']
      have hn := (hi.last o ob hob hl).2.2
      cases hr0 : ob.inst.lp.cb.removed with
      | false =>
        cases hr1 : s'.lp.cb.removed with
        | false =>
          rw [hr0] at hn
          simp only [and_false, Bool.false_eq_true, if_false]
          split
          · rename_i hf; subst hf; exact hn
          · rfl
        | true => simp [setNonce]
      | true =>
        have hr1 : s'.lp.cb.removed = true := hmono hr0
        rw [hr0] at hn
        simp only [hr1, Bool.true_eq_false, false_and, if_false, if_true]
        split
        · rename_i hf; subst hf; exact hn
        · rfl
  | cont o rand =>
    simp only [World.step, WEv.at] at hst
    split at hst
    · cases hst
    rename_i ob hob
    simp only [WEv.openIdx, hob] at hst
    split at hst
    · rename_i hph
      rw [Option.map_eq_some_iff] at hst
      obtain ⟨⟨w1, x⟩, hre, hst⟩ := hst
      injection hst with h1 h2; subst h1
      have hnc : ¬ ob.inst.closedOk := fun hc => by rw [hc.1] at hph; cases hph
      obtain ⟨hl, pre, post, hd, hnm⟩ := last_of_step hb hob hnc
      obtain ⟨g1, g2, g3⟩ := hi.last o ob hob hl
      have hrm := Inst.removed_clrOpen hd.book hph
      rw [hrm] at g3 hnm
      obtain ⟨k, hk⟩ := Option.isSome_iff_exists.1 (hkeys ((encProcess C page fileOf dirOk).fileOf ob.dir))
      have hfile : w.fileAt ((encProcess C page fileOf dirOk).fileOf ob.dir) = none := by unfold fileAt; rw [hnm]; rfl
      obtain ⟨s', x', hrs, ho, rfl⟩ := reopen_objs hre
      unfold Inst.reopenStep at hrs
      rw [if_neg (by rw [keyOk_openIdx hkeys]; simp)] at hrs
      have hs' : s'.idx = openIdx keys n ((encProcess C page fileOf dirOk).fileOf ob.dir) rand ∧ s'.lp.cb.removed = false := by
        simp only [Inst.step, Inst.atName, hph, hfile, Option.isNone_none, if_true] at hrs
        have bad : ∀ {y : Inst (Bytes × Bytes)}, some (y, some (Out.panic : Out Unit)) = some (s', x') → False := by
          intro y hy
          injection hy with hy; injection hy with _ hy; subst hy
          have := hnp o rand rfl .panic h2.symm
          cases this
        split at hrs
        · exact absurd hrs bad
        · rename_i s1 ho1
          have hok : s1.idx = openIdx keys n ((encProcess C page fileOf dirOk).fileOf ob.dir) rand ∧ s1.lp.cb.removed = false := ⟨openAt_idx ho1, (openAt_file ho1).2⟩
          split at hrs
          · injection hrs with hrs; injection hrs with hrs _; subst hrs; exact hok
          · split at hrs
            · injection hrs with hrs; injection hrs with hrs _; subst hrs; exact hok
            · split at hrs
              · exact absurd hrs bad
              · cases hrs
      have hn : ∀ f, noncesAfter (encProcess C page fileOf dirOk) keys n w w1 (.cont o rand) f =
          if f = (encProcess C page fileOf dirOk).fileOf ob.dir then some (initNonce (n f) rand) else n f := by
        intro f
        simp only [noncesAfter, hob, hph, hk, Option.isSome_some, and_self, if_true, setNonce]
        split
        · rename_i hf; subst hf; rfl
        · rfl
      refine ninv_stepped' hi hob ho rfl hl ⟨?_, ?_, ?_⟩ (fun f hf => by rw [hn, if_neg hf])
      · rw [hs'.1, openIdx, hk]; rfl
      · rw [hs'.1]; exact initNonce_length hrand
      · rw [hn, if_pos rfl, hs'.2, hs'.1]; rfl
    · rename_i hph
      rw [Option.map_eq_some_iff] at hst
      obtain ⟨⟨w1, x⟩, hre, hst⟩ := hst
      injection hst with h1 h2; subst h1
      obtain ⟨ob2, s', q1, q2, rfl⟩ := stepObj_eq hre
      rw [hob] at q1; injection q1 with q1; subst q1
      have hn : ∀ w', noncesAfter (encProcess C page fileOf dirOk) keys n w w' (.cont o rand) = n := by
        intro w'
        simp only [noncesAfter, hob, hph, false_and, if_false]
      rw [hn]
      exact ninv_plain hi hb hob q2 rfl (fun _ _ => hph) (by simp)
  | create d rand =>
    simp only [WEv.at, WEv.openIdx] at hst hcalm
    simp only [World.step] at hst
    split at hst
    · rename_i hp
      injection hst with hst; injection hst with h1 h2; subst h1
      rw [noncesAfter, if_neg (by simp [hp])]
      exact ninv_same hi rfl
    rename_i hp
    split at hst
    · rename_i o ho
      simp only [World.addHandle] at hst
      injection hst with hst; injection hst with h1 h2; subst h1
      rw [noncesAfter, if_neg (by simp [ho])]
      exact ninv_same hi rfl
    rename_i hu
    split at hst
    · rename_i hd
      injection hst with hst; injection hst with h1 h2; subst h1
      rw [noncesAfter, if_neg (by simp [hd])]
      exact ninv_same hi rfl
    rename_i hd
    have hd : (encProcess C page fileOf dirOk).dirOk d = true := by simpa using hd
    have hp : w.poisoned = false := by simpa using hp
    have hkd := hi.keyed hb (hcalm hu) hrand
    obtain ⟨s, hs, _, _⟩ := Inst.dinv_open ((hb.file ((encProcess C page fileOf dirOk).fileOf d)).at_rest (hcalm hu) hkd)
    have hcont := touch_content hb.reg (encProcess C page fileOf dirOk).page ((encProcess C page fileOf dirOk).fileOf d)
    have hop : Inst.openAt (encProcess C page fileOf dirOk).codecs (openIdx keys n ((encProcess C page fileOf dirOk).fileOf d) rand) (encProcess C page fileOf dirOk).page
        ((w.touch (encProcess C page fileOf dirOk).page ((encProcess C page fileOf dirOk).fileOf d)).1.content (w.touch (encProcess C page fileOf dirOk).page ((encProcess C page fileOf dirOk).fileOf d)).2) = some s := by
      rw [hcont, openAt_configNew]
      show Inst.openAt (encrypted C) _ page _ = _
      rw [← hcod, ← hpg]; exact hs
    obtain ⟨t1, t2, t3, t4⟩ := touch_objs w (encProcess C page fileOf dirOk).page ((encProcess C page fileOf dirOk).fileOf d)
    rw [if_neg (by rw [keyOk_openIdx hkeys]; simp), hop] at hst
    simp only [World.addHandle] at hst
    injection hst with hst; injection hst with h1 h2
    have ho : w'.objs = w.objs ++ [{ inst := s, dir := d, inode := (w.touch (encProcess C page fileOf dirOk).page ((encProcess C page fileOf dirOk).fileOf d)).2 }] := by
      rw [← h1, ← t1]
    obtain ⟨k, hk⟩ := Option.isSome_iff_exists.1 (hkeys ((encProcess C page fileOf dirOk).fileOf d))
    have hn : ∀ f, noncesAfter (encProcess C page fileOf dirOk) keys n w w' (.create d rand) f =
        if f = (encProcess C page fileOf dirOk).fileOf d then some (initNonce (n f) rand) else n f := by
      intro f
      simp only [noncesAfter, hp, hu, hd, hk, Option.isSome_some, and_self, if_true, setNonce]
      split
      · rename_i hf; subst hf; rfl
      · rfl
    have hold : ∀ {p : Nat} {y : Obj (Bytes × Bytes)}, w.objs[p]? = some y → w'.objs[p]? = some y := by
      intro p y hy
      rw [ho, List.getElem?_append_left (getElem?_lt hy)]; exact hy
    have hnew : w'.objs[w.objs.length]? = some { inst := s, dir := d, inode := (w.touch (encProcess C page fileOf dirOk).page ((encProcess C page fileOf dirOk).fileOf d)).2 } := by
      rw [ho]; simp
    constructor
    · intro f hf
      have hne : f ≠ (encProcess C page fileOf dirOk).fileOf d := fun e => hf _ _ hnew e.symm
      rw [hn, if_neg hne]
      exact hi.unused f fun p y hy => hf p y (hold hy)
    · intro p x hx hl
      rw [ho, List.getElem?_append] at hx
      split at hx
      · rename_i hlt
        have hne : (encProcess C page fileOf dirOk).fileOf x.dir ≠ (encProcess C page fileOf dirOk).fileOf d := by
          intro e
          have := hl _ _ hnew e.symm
          omega
        obtain ⟨g1, g2, g3⟩ := hi.last p x hx fun q y hy hyf => hl q y (hold hy) hyf
        exact ⟨g1, g2, by rw [hn, if_neg hne]; exact g3⟩
      · rw [List.getElem?_singleton] at hx
        split at hx
        · injection hx with hx; subst hx
          have hidx := openAt_idx hop
          refine ⟨?_, ?_, ?_⟩
          · simp only [hidx, openIdx, hk]; rfl
          · simp only [hidx, openIdx]; exact initNonce_length hrand
          · simp only [hn, if_true, (openAt_file hop).2, hidx, openIdx]; rfl
        · cases hx

end

namespace Proc

/-- What a step of a thread does to the process. -/
theorem worldEv_step {ι α : Type} {S : Sys ι} {s s' : Proc ι} {e : PrEv α} {i : ι} {v : Option (HEv POp PRes)} {e' : PrEv ι}
    (he : e' = match e with | .call t op => .call t op | .go t _ => .go t i | .ret t => .ret t | .io o ord => .io o ord)
    (h : s.step S e' = some (s', v)) :
    (s.worldEv e = none ∧ s'.w = s.w) ∨ ∃ we r, s.worldEv e = some we ∧ s.w.step S (we.at i) = some (s'.w, r) := by
  subst he
  cases e with
  | call t op =>
    simp only [step] at h
    split at h
    · injection h with h; injection h with h1 h2; subst h1; exact .inl ⟨rfl, rfl⟩
    · cases h
  | ret t =>
    simp only [step] at h
    split at h
    · injection h with h; injection h with h1 h2; subst h1; exact .inl ⟨rfl, rfl⟩
    · cases h
  | io o ord =>
    simp only [step] at h
    rw [Option.map_eq_some_iff] at h
    obtain ⟨⟨w, r⟩, hst, h⟩ := h
    injection h with h1 h2; subst h1
    exact .inr ⟨.io o ord, r, rfl, hst⟩
  | go t a =>
    simp only [step] at h
    rw [Option.map_eq_some_iff] at h
    obtain ⟨s1, hg, h⟩ := h
    injection h with h1 h2; subst h1
    have hop : ∀ {d : String} {x : World ι × WRes}, s.opened t d x = some s1 → s1.w = x.1 := by
      intro d x hx
      obtain ⟨w, r⟩ := x
      cases r <;> simp only [opened, Option.some.injEq, reduceCtorEq] at hx <;> (subst hx; rfl)
    have hwk : ∀ {op : POp} {x : World ι × WRes}, s.worked t op x = some s1 → s1.w = x.1 := by
      intro op x hx
      obtain ⟨w, r⟩ := x
      cases r <;> simp only [worked, Option.some.injEq, reduceCtorEq] at hx <;> (subst hx; rfl)
    unfold go at hg
    split at hg
    · rename_i d ht
      rw [Option.bind_eq_some_iff] at hg
      obtain ⟨x, hst, hg⟩ := hg
      exact .inr ⟨.lookup d, x.2, by simp [worldEv, ht], by rw [hop hg]; exact hst⟩
    · rename_i d ht
      rw [Option.bind_eq_some_iff] at hg
      obtain ⟨x, hst, hg⟩ := hg
      exact .inr ⟨.create d a, x.2, by simp [worldEv, ht], by rw [hop hg]; exact hst⟩
    · rename_i k d m ht
      split at hg
      · cases hg
      split at hg
      · rw [Option.bind_eq_some_iff] at hg
        obtain ⟨x, hst, hg⟩ := hg
        exact .inr ⟨.call k d m, x.2, by simp [worldEv, ht], by rw [hwk hg]; exact hst⟩
      · cases hg
    · rename_i k d m ht
      split at hg
      · cases hg
      rename_i hd hk
      rw [Option.bind_eq_some_iff] at hg
      obtain ⟨x, hst, hg⟩ := hg
      exact .inr ⟨.cont hd.obj a, x.2, by simp [worldEv, ht, hk], by rw [hwk hg]; exact hst⟩
    · rename_i k d key tok ht
      split at hg
      · split at hg
        · injection hg with hg; subst hg; exact .inl ⟨by simp [worldEv, ht], rfl⟩
        · cases hg
      · cases hg
    · rename_i k d key tok ht
      split at hg
      · injection hg with hg; subst hg; exact .inl ⟨by simp [worldEv, ht], rfl⟩
      · cases hg
    · rename_i k d ht
      split at hg
      · rename_i w hst
        injection hg with hg; subst hg
        exact .inr ⟨.drop1 k, _, by simp [worldEv, ht], hst⟩
      · rename_i w hst
        injection hg with hg; subst hg
        exact .inr ⟨.drop1 k, _, by simp [worldEv, ht], hst⟩
      · cases hg
    · rename_i k d r ht
      split at hg
      · rename_i hd w x hk hst
        injection hg with hg; subst hg
        exact .inr ⟨.drop2 k, x, by simp [worldEv, ht], hst⟩
      · cases hg
    · rename_i k d o r ht
      split at hg
      · cases hg
      split at hg
      · injection hg with hg; subst hg; exact .inl ⟨by simp [worldEv, ht], rfl⟩
      · split at hg
        · injection hg with hg; subst hg; exact .inl ⟨by simp [worldEv, ht], rfl⟩
        · cases hg
    · cases hg

end Proc
end Mmkv
