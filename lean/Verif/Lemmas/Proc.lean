import Verif.Model.Proc
import Verif.Props.Multi
import Verif.Props.Process
/-! What the steps of a process with threads (`Model/Proc`) keep. -/

namespace Mmkv
open Spec World

section
variable {ι : Type} {S : Sys ι} {w w' : World ι}

theorem reopenStep_phase {s s' : Inst ι} {i : ι} {r : Option (Out Unit)} (h : s.reopenStep S i = some (s', r)) : s'.phase ≠ .closed := by
  unfold Inst.reopenStep at h
  split at h
  · injection h with h; injection h with h1 _; subst h1; simp
  · exact ((Inst.step_phase h).2.1 i rfl).2.2

/-- A store that is closing was closing before, or the event released its last handle. -/
theorem closing_step {e : WEv ι} {r : WRes} (h : w.step S e = some (w', r)) {o : Nat} {ob' : Obj ι} (hob' : w'.objs[o]? = some ob')
    (hp : ob'.inst.phase = .closed) (hx : ob'.inst.lp.io ≠ .exited) :
    (∃ ob : Obj ι, w.objs[o]? = some ob ∧ ob.dir = ob'.dir ∧ ob.inst.phase = .closed ∧ ob.inst.lp.io ≠ .exited) ∨
      ∃ (k : Nat) (hd : Handle), e = .drop2 k ∧ w.handles[k]? = some hd ∧ hd.obj = o := by
  cases step_moves h with
  | quiet ho _ _ _ _ => rw [ho] at hob'; exact .inl ⟨ob', hob', rfl, hp, hx⟩
  | touched _ _ ho _ _ => rw [ho] at hob'; exact .inl ⟨ob', hob', rfl, hp, hx⟩
  | opened _ hs ho _ _ =>
    rw [ho, List.getElem?_append] at hob'
    split at hob'
    · exact .inl ⟨ob', hob', rfl, hp, hx⟩
    · rw [List.getElem?_singleton] at hob'
      split at hob'
      · injection hob' with hob'; subst hob'
        rw [openAt_phase hs] at hp; cases hp
      · cases hob'
  | @stepped _ q ev ob s' c r' ha hob hst ho _ _ =>
    rw [ho] at hob'
    rcases getElem?_set_cases hob' with ⟨rfl, rfl⟩ | ⟨_, hob'⟩
    · have hph := Inst.step_phase hst
      cases ha with
      | call hh hl hd => exact absurd hp (hph.1 (by cases ‹Mutation› <;> simp [evOf, Ev.call?])).2
      | cont _ _ => exact absurd hp (hph.2.1 _ rfl).2.2
      | io =>
        left
        refine ⟨ob, hob, rfl, ?_, ?_⟩
        · have := hph.2.2.1 _ rfl
          exact this.symm.trans hp
        · intro hex
          simp [Inst.step, Inst.withFile, Looper.ioStep, hex] at hst
      | drop hh hl h0 => exact .inr ⟨_, _, rfl, hh, rfl⟩
    · exact .inl ⟨ob', hob', rfl, hp, hx⟩
  | reopened hob hp' hst ho _ _ =>
    rw [ho] at hob'
    rcases getElem?_set_cases hob' with ⟨rfl, rfl⟩ | ⟨_, hob'⟩
    · exact absurd hp (reopenStep_phase hst)
    · exact .inl ⟨ob', hob', rfl, hp, hx⟩

/-- Only a call makes a store busy. -/
theorem resting_step {e : WEv ι} {r : WRes} (h : w.step S e = some (w', r)) {o : Nat} {ob' : Obj ι} (hob' : w'.objs[o]? = some ob')
    (hold : ∀ ob : Obj ι, w.objs[o]? = some ob → ob.inst.phase = .idle ∨ ob.inst.phase = .closed)
    (hno : ∀ (k : Nat) (d : String) (m : Mutation) (hd : Handle), e = .call k d m → w.handles[k]? = some hd → hd.obj ≠ o) :
    ob'.inst.phase = .idle ∨ ob'.inst.phase = .closed := by
  cases step_moves h with
  | quiet ho _ _ _ _ => rw [ho] at hob'; exact hold _ hob'
  | touched _ _ ho _ _ => rw [ho] at hob'; exact hold _ hob'
  | opened _ hs ho _ _ =>
    rw [ho, List.getElem?_append] at hob'
    split at hob'
    · exact hold _ hob'
    · rw [List.getElem?_singleton] at hob'
      split at hob'
      · injection hob' with hob'; subst hob'
        exact .inl (openAt_phase hs)
      · cases hob'
  | @stepped _ q ev ob s' c r' ha hob hst ho _ _ =>
    rw [ho] at hob'
    rcases getElem?_set_cases hob' with ⟨rfl, rfl⟩ | ⟨_, hob'⟩
    · have hph := Inst.step_phase hst
      cases ha with
      | call hh hl hd => exact absurd rfl (hno _ _ _ _ rfl hh)
      | cont _ _ =>
        obtain ⟨h1, h2, _⟩ := hph.2.1 _ rfl
        rcases hold _ hob with h | h
        · exact absurd h h1
        · exact absurd h h2
      | io =>
        have := hph.2.2.1 _ rfl
        simp only [this]
        exact hold _ hob
      | drop hh hl h0 => exact .inr (hph.2.2.2 rfl).2
    · exact hold _ hob'
  | reopened hob hp' hst ho _ _ =>
    rw [ho] at hob'
    rcases getElem?_set_cases hob' with ⟨rfl, rfl⟩ | ⟨_, hob'⟩
    · rcases hold _ hob with h | h <;> rw [hp'] at h <;> cases h
    · exact hold _ hob'

/-- A store is of a directory that some `new` has opened. -/
theorem dir_step {e : WEv ι} {r : WRes} (h : w.step S e = some (w', r)) {o : Nat} {ob' : Obj ι} (hob' : w'.objs[o]? = some ob') :
    (∃ ob : Obj ι, w.objs[o]? = some ob ∧ ob.dir = ob'.dir) ∨ ∃ i, e = .create ob'.dir i ∧ S.dirOk ob'.dir = true := by
  cases step_moves h with
  | quiet ho _ _ _ _ => rw [ho] at hob'; exact .inl ⟨ob', hob', rfl⟩
  | touched _ _ ho _ _ => rw [ho] at hob'; exact .inl ⟨ob', hob', rfl⟩
  | @opened dir i s hu hs ho _ _ =>
    rw [ho, List.getElem?_append] at hob'
    split at hob'
    · exact .inl ⟨ob', hob', rfl⟩
    · rw [List.getElem?_singleton] at hob'
      split at hob'
      · injection hob' with hob'; subst hob'
        refine .inr ⟨i, rfl, ?_⟩
        cases hok : S.dirOk dir with
        | true => rfl
        | false =>
          exfalso
          simp only [World.step, hu, hok, if_true] at h
          split at h
          · injection h with h; injection h with _ h; cases h
          · injection h with h; injection h with _ h; cases h
      · cases hob'
  | stepped ha hob hst ho _ _ =>
    rw [ho] at hob'
    rcases getElem?_set_cases hob' with ⟨rfl, rfl⟩ | ⟨_, hob'⟩
    · exact .inl ⟨_, hob, rfl⟩
    · exact .inl ⟨ob', hob', rfl⟩
  | reopened hob hp' hst ho _ _ =>
    rw [ho] at hob'
    rcases getElem?_set_cases hob' with ⟨rfl, rfl⟩ | ⟨_, hob'⟩
    · exact .inl ⟨_, hob, rfl⟩
    · exact .inl ⟨ob', hob', rfl⟩

/-- Calls and background threads leave the handles and the registry lock alone. -/
theorem act_same {e : WEv ι} {r : WRes} (h : w.step S e = some (w', r))
    (he : (∃ k d m, e = .call k d m) ∨ (∃ o j, e = .cont o j) ∨ ∃ o ord, e = .io o ord) : w'.handles = w.handles ∧ w'.poisoned = w.poisoned := by
  have hso : ∀ {v v' : World ι} {o : Nat} {ev : Ev ι} {c : Option Nat} {r : Option (Out Unit)},
      v.stepObj S o ev c = some (v', r) → v'.handles = v.handles ∧ v'.poisoned = v.poisoned := by
    intro v v' o ev c r h
    obtain ⟨_, _, _, _, rfl⟩ := stepObj_eq h
    exact ⟨rfl, rfl⟩
  rcases he with ⟨k, d, m, rfl⟩ | ⟨o, j, rfl⟩ | ⟨o, ord, rfl⟩
  · simp only [World.step] at h
    split at h
    · cases h
    split at h
    · cases h
    rw [Option.map_eq_some_iff] at h
    obtain ⟨⟨w1, r1⟩, h1, h2⟩ := h
    injection h2 with h2 h3; subst h2
    exact hso h1
  · simp only [World.step] at h
    split at h
    · cases h
    rename_i ob hob
    rw [Option.map_eq_some_iff] at h
    obtain ⟨⟨w1, r1⟩, h1, h2⟩ := h
    injection h2 with h2 h3; subst h2
    split at h1
    · unfold World.reopen at h1
      split at h1
      · cases h1
      have ht := touch_objs w S.page (S.fileOf ob.dir)
      generalize w.touch S.page (S.fileOf ob.dir) = tw at h1 ht
      obtain ⟨w2, n⟩ := tw
      simp only at h1 ht
      injection h1 with h1; injection h1 with h1 h4; subst h1
      exact ⟨ht.2.1, ht.2.2.2⟩
    · exact hso h1
  · simp only [World.step] at h
    split at h
    · cases h
    rw [Option.map_eq_some_iff] at h
    obtain ⟨⟨w1, r1⟩, h1, h2⟩ := h
    injection h2 with h2 h3; subst h2
    exact hso h1
end

variable {ι : Type}

/-- What holds of the world of a process: `U` are the directories that have been opened, `cs` the calls made on each data file. -/
structure Base (E : Env ι) (S : Sys ι) (J : Nat → ι → Prop) (K : Nat) (S0 : Nat → Store) (U : String → Prop) (w : World ι) (cs : Nat → List Mutation) : Prop where
  reg : Reg S w
  file : ∀ f, FileInv E S J K f (S0 f) (cs f) w
  lv : ∀ (o : Nat) (ob : Obj ι), w.objs[o]? = some ob → ob.inst.Live
  used : ∀ (o : Nat) (ob : Obj ι), w.objs[o]? = some ob → S.dirOk ob.dir = true ∧ U ob.dir

theorem base_step {E : Env ι} {S : Sys ι} {J : Nat → ι → Prop} {K : Nat} {S0 : Nat → Store} {U : String → Prop} {w w' : World ι} {cs : Nat → List Mutation}
    {e : WEv ι} {r : WRes} (hcod : S.codecs = E.codecs) (hpg : S.page = E.page) (hkey : e.Keyed S J w) (hb : Base E S J K S0 U w cs)
    (he : e.Ok E) (hcalm : Calm S w e) (hU : ∀ d i, e = .create d i → U d) (hroom : ∀ f, E.Room (K + (cs f).length))
    (hst : w.step S e = some (w', r)) :
    (∀ x, r = .ret x → x = .ok ()) ∧ Base E S J K S0 U w' (fun f => cs f ++ callsOf S f [e]) := by
  obtain ⟨h1, h2⟩ := fileInv_step hcod hpg hkey hb.reg hb.file he hcalm hroom hst
  refine ⟨h1, hb.reg.step hst, h2, live_step_world hb.lv hst, ?_⟩
  intro o ob ho
  rcases dir_step hst ho with ⟨ob0, h0, hd⟩ | ⟨i, rfl, hok⟩
  · rw [← hd]; exact hb.used o ob0 h0
  · exact ⟨hok, hU _ i rfl⟩

theorem base_mono {E : Env ι} {S : Sys ι} {J : Nat → ι → Prop} {K : Nat} {S0 : Nat → Store} {U U' : String → Prop} {w : World ι} {cs : Nat → List Mutation}
    (hb : Base E S J K S0 U w cs) (h : ∀ d, U d → U' d) : Base E S J K S0 U' w cs :=
  ⟨hb.reg, hb.file, hb.lv, fun o ob ho => ⟨(hb.used o ob ho).1, h _ (hb.used o ob ho).2⟩⟩

/-- No background thread dies. -/
theorem Base.alive {E : Env ι} {S : Sys ι} {J : Nat → ι → Prop} {K : Nat} {S0 : Nat → Store} {U : String → Prop} {w : World ι} {cs : Nat → List Mutation}
    (hb : Base E S J K S0 U w cs) {o : Nat} {ob : Obj ι} (ho : w.objs[o]? = some ob) : ob.inst.lp.io ≠ .dead := by
  rcases hb.file (S.fileOf ob.dir) with ⟨h1, _⟩ | ⟨p, x, pre, post, h1, h2, h3, h4, h5, h6, h7⟩
  · exact absurd rfl (h1 o ob ho)
  · by_cases hop : o = p
    · subst hop
      rw [ho] at h1; injection h1 with h1; subst h1
      exact h5.alive.2
    · rw [(h3 o ob hop ho rfl).1.2]; simp

namespace Proc

/-- What a call returns, once it has taken effect. -/
def out (op : POp) : Stage → Option PRes
  | .start => none
  | .missed => none
  | .locked => match op with
    | .on _ _ (.mut _) => some (.res (.ok none))
    | _ => none
  | .unlisted r => some r
  | .joining _ r => some r
  | .done r => some r

/-- Thread `t` is in the call `op`, which has not taken effect. -/
def Waits (s : Proc ι) (t : Nat) (op : POp) : Prop := ∃ st, s.th t = .busy op st ∧ out op st = none

/-- Thread `t` is in a call that has taken effect and will return `r`. -/
def Ready (s : Proc ι) (t : Nat) (r : PRes) : Prop := ∃ op st, s.th t = .busy op st ∧ out op st = some r

/-- The handle of a call, with its directory. -/
def via : POp → Option (Nat × String)
  | .new _ => none
  | .on h d _ => some (h, d)
  | .drop h d => some (h, d)

/-- What holds of the threads. -/
structure Thr (s : Proc ι) : Prop where
  unl : ∀ (k : Nat) (hd : Handle), s.w.handles[k]? = some hd → hd.st = .unlisted → ∃ t r, s.th t = .busy (.drop k hd.dir) (.unlisted r)
  clo : ∀ (o : Nat) (ob : Obj ι), s.w.objs[o]? = some ob → ob.inst.phase = .closed → ob.inst.lp.io ≠ .exited →
    ∃ t k r, s.th t = .busy (.drop k ob.dir) (.joining o r)
  dir : ∀ (t : Nat) (op : POp) (st : Stage) (k : Nat) (d : String), s.th t = .busy op st → via op = some (k, d) →
    ∃ hd, s.w.handles[k]? = some hd ∧ hd.dir = d
  rdr : ∀ u ∈ s.readers, ∀ ob : Obj ι, s.w.objs[u.2]? = some ob → ob.inst.phase = .idle ∨ ob.inst.phase = .closed
  inr : ∀ (t h : Nat) (d k : String) (tok : BitVec 32), s.th t = .busy (.on h d (.get k tok)) .locked →
    ∃ hd, s.w.handles[h]? = some hd ∧ (t, hd.obj) ∈ s.readers

/-- Events other than drops. -/
theorem handles_back {S : Sys ι} {w w' : World ι} {e : WEv ι} {r : WRes} (h : w.step S e = some (w', r)) (h1 : ∀ j, e ≠ .drop1 j)
    (h2 : ∀ j, e ≠ .drop2 j) {k : Nat} {hd : Handle} (hk : w'.handles[k]? = some hd) (hu : hd.st = .unlisted) : w.handles[k]? = some hd := by
  have hadd : ∀ (v : World ι) (x : Handle), v.handles = w.handles ++ [x] → x.st = .live → v.handles[k]? = some hd → w.handles[k]? = some hd := by
    intro v x hv hl hk
    rw [hv, List.getElem?_append] at hk
    split at hk
    · exact hk
    · rw [List.getElem?_singleton] at hk
      split at hk
      · injection hk with hk; subst hk; rw [hl] at hu; cases hu
      · cases hk
  cases e with
  | lookup d =>
    simp only [World.step] at h
    split at h
    · injection h with h; injection h with h _; subst h; exact hk
    · split at h
      · simp only [World.addHandle] at h
        injection h with h; injection h with h _; subst h
        exact hadd _ _ rfl rfl hk
      · injection h with h; injection h with h _; subst h; exact hk
  | create d i =>
    obtain ⟨t1, t2, t3, t4⟩ := touch_objs w S.page (S.fileOf d)
    simp only [World.step] at h
    generalize w.touch S.page (S.fileOf d) = tw at h t1 t2 t3 t4
    obtain ⟨w2, n⟩ := tw
    simp only at h t1 t2 t3 t4
    split at h
    · injection h with h; injection h with h _; subst h; exact hk
    split at h
    · simp only [World.addHandle] at h
      injection h with h; injection h with h _; subst h
      exact hadd _ _ rfl rfl hk
    split at h
    · injection h with h; injection h with h _; subst h; exact hk
    split at h
    · injection h with h; injection h with h _; subst h; simp only [t2] at hk; exact hk
    split at h
    · injection h with h; injection h with h _; subst h; simp only [t2] at hk; exact hk
    · simp only [World.addHandle] at h
      injection h with h; injection h with h _; subst h
      exact hadd _ _ (by simp only [t2]; rfl) rfl hk
  | call j d m => rw [(act_same h (.inl ⟨_, _, _, rfl⟩)).1] at hk; exact hk
  | cont o j => rw [(act_same h (.inr (.inl ⟨_, _, rfl⟩))).1] at hk; exact hk
  | io o ord => rw [(act_same h (.inr (.inr ⟨_, _, rfl⟩))).1] at hk; exact hk
  | drop1 j => exact absurd rfl (h1 j)
  | drop2 j => exact absurd rfl (h2 j)

/-- A step of the world that drops nothing, and threads that are not in a drop going on. -/
theorem thr_step {S : Sys ι} {s s' : Proc ι} {e : WEv ι} {r : WRes} (hi : Thr s) (hst : World.step S s.w e = some (s'.w, r))
    (h1 : ∀ j, e ≠ .drop1 j) (h2 : ∀ j, e ≠ .drop2 j)
    (hkeep : ∀ (t k : Nat) (d : String) (st : Stage), s.th t = .busy (.drop k d) st → s'.th t = .busy (.drop k d) st)
    (hdir : ∀ (t : Nat) (op : POp) (st : Stage), s'.th t = .busy op st → ∃ st', s.th t = .busy op st')
    (hin : ∀ (t h : Nat) (d k : String) (tok : BitVec 32), s'.th t = .busy (.on h d (.get k tok)) .locked → s.th t = .busy (.on h d (.get k tok)) .locked)
    (hrd : s'.readers = s.readers)
    (hno : ∀ (k : Nat) (d : String) (m : Mutation) (hd : Handle), e = .call k d m → s.w.handles[k]? = some hd → ∀ u ∈ s.readers, hd.obj ≠ u.2) :
    Thr s' where
  unl k hd hk hu := by
    obtain ⟨t, r, ht⟩ := hi.unl k hd (handles_back hst h1 h2 hk hu) hu
    exact ⟨t, r, hkeep t k _ _ ht⟩
  clo o ob ho hp hx := by
    rcases closing_step hst ho hp hx with ⟨ob0, g1, g2, g3, g4⟩ | ⟨k, hd, he, _⟩
    · obtain ⟨t, k, r, ht⟩ := hi.clo o ob0 g1 g3 g4
      exact ⟨t, k, r, by rw [← g2]; exact hkeep t k _ _ ht⟩
    · exact absurd he (h2 k)
  dir t op st k d ht hv := by
    obtain ⟨st', ht'⟩ := hdir t op st ht
    obtain ⟨hd, g1, g2⟩ := hi.dir t op st' k d ht' hv
    obtain ⟨hd', g3, _, g4, _⟩ := handles_step hst g1
    exact ⟨hd', g3, g4.trans g2⟩
  rdr u hu ob ho := by
    rw [hrd] at hu
    exact resting_step hst ho (hi.rdr u hu) fun k d m hd he hh => hno k d m hd he hh u hu
  inr t h d k tok ht := by
    obtain ⟨hd, g1, g2⟩ := hi.inr t h d k tok (hin t h d k tok ht)
    obtain ⟨hd', g3, g4, _⟩ := handles_step hst g1
    exact ⟨hd', g3, by rw [hrd, g4]; exact g2⟩

end Proc
end Mmkv
