import Verif.Lemmas.Proc
/-!
# C87: a process that opens, uses, closes and reopens directories is linearizable as a whole
-/

namespace Mmkv
open Spec World

/-- The sequential process: the map each directory stands for, the handles made so far (with their directory string and whether they are still in
use), and whether a failed `new` has broken the registry. -/
structure SeqProc where
  maps : Nat → Store
  handles : List (String × Bool) := []
  broken : Bool := false

/-- What one call, made alone, does to the process and returns.  `dirOk d`: `d` is a usable directory; `fileOf d`: the directory it names.  A directory
has one map, which calls change and which opening and closing leave alone. -/
inductive SeqBehaves (dirOk : String → Bool) (fileOf : String → Nat) : SeqProc → POp → PRes → SeqProc → Prop
  /-- `new`: one more handle -/
  | new {p d} (h : p.broken = false) (hd : dirOk d = true) :
      SeqBehaves dirOk fileOf p (.new d) (.handle p.handles.length) { p with handles := p.handles ++ [(d, true)] }
  /-- `new` of something that is no usable directory -/
  | refused {p d} (h : p.broken = false) (hd : dirOk d = false) : SeqBehaves dirOk fileOf p (.new d) .panicked { p with broken := true }
  /-- after that every `new` panics (cf. C31) -/
  | broken {p d} (h : p.broken = true) : SeqBehaves dirOk fileOf p (.new d) .panicked p
  /-- a call through a handle in use: the map of its directory and no other -/
  | call {p k d op r T} (h : p.handles[k]? = some (d, true)) (hb : MapBehaves (p.maps (fileOf d)) op r T) :
      SeqBehaves dirOk fileOf p (.on k d op) (.res r) { p with maps := fun f => if f = fileOf d then T else p.maps f }
  /-- dropping a handle in use (it panics if the registry is broken, cf. C31): it is out of use, and nothing else changes -/
  | drop {p k d} (h : p.handles[k]? = some (d, true)) :
      SeqBehaves dirOk fileOf p (.drop k d) (if p.broken then .panicked else .dropped) { p with handles := p.handles.set k (d, false) }

/-- In the history a `new` of `d` has returned a handle that nobody has begun to drop. -/
def HandleKept (h : List (HEv POp PRes)) (d : String) : Prop :=
  ∃ i j k, Returned h i j (.new d) (.handle k) ∧ ∀ (u : Nat) (e : String), .inv u (.drop k e) ∉ h

/-- In the history no `new` of a directory overlaps the drop of one of its handles (else: C30), unless another of its handles is kept. -/
def Apart (h : List (HEv POp PRes)) : Prop :=
  ∀ (n t u i j k : Nat) (d : String), Pending (h.take n) t i (.new d) → Pending (h.take n) u j (.drop k d) → HandleKept (h.take n) d

/-- In the history every directory is always called by the same string (else: C29). -/
def OneSpelling (fileOf : String → Nat) (h : List (HEv POp PRes)) : Prop :=
  ∀ (t u : Nat) (d e : String), .inv t (.new d) ∈ h → .inv u (.new e) ∈ h → fileOf d = fileOf e → d = e

/-- The records of the calls of the history fit a page. -/
def CallsFit (page : Nat) (h : List (HEv POp PRes)) : Prop :=
  ∀ (t k : Nat) (d : String) (m : Mutation), .inv t (.on k d (.mut m)) ∈ h → (evOf m : Ev Unit).Fits page

/-- The mutation of directory `f` an entry of a linearization is, if it is one. -/
def mutationOn (fileOf : String → Nat) (f : Nat) : Nat × POp × PRes → Option Mutation
  | (_, .on _ d (.mut m), _) => if fileOf d = f then some m else none
  | _ => none

/-- The mutations of directory `f` in a linearization, in its order. -/
def mutationsOn (fileOf : String → Nat) (f : Nat) (L : List (Nat × POp × PRes)) : List Mutation := L.filterMap (mutationOn fileOf f)

theorem Apart.left {h h' : List (HEv POp PRes)} (ha : Apart (h ++ h')) : Apart h := by
  intro n t u i j k d h1 h2
  have e : (h ++ h').take (min n h.length) = h.take n := by
    rw [List.take_append_of_le_length (Nat.min_le_right _ _)]
    rcases Nat.le_total n h.length with hl | hl
    · rw [Nat.min_eq_left hl]
    · rw [Nat.min_eq_right hl, List.take_of_length_le (Nat.le_refl _), List.take_of_length_le hl]
  rw [← e]
  exact ha (min n h.length) t u i j k d (by rw [e]; exact h1) (by rw [e]; exact h2)

/-- A handle that was made and never dropped is in use. -/
theorem seq_in_use {dirOk : String → Bool} {fileOf : String → Nat} {p p' : SeqProc} {l : List (POp × PRes)} (h : Legal (SeqBehaves dirOk fileOf) p l p') :
    (∀ (k : Nat) (d : String), p.handles[k]? = some (d, true) → (∀ e, POp.drop k e ∉ l.map (·.1)) → p'.handles[k]? = some (d, true)) ∧
    ∀ (k : Nat) (d : String), (POp.new d, PRes.handle k) ∈ l → (∀ e, POp.drop k e ∉ l.map (·.1)) → p'.handles[k]? = some (d, true) := by
  induction h with
  | nil σ => exact ⟨fun k d h _ => h, fun k d h => absurd h List.not_mem_nil⟩
  | @cons σ σ' σ'' op r l hs rest ih =>
    obtain ⟨ih1, ih2⟩ := ih
    have hd' : ∀ {k : Nat}, (∀ e, POp.drop k e ∉ ((op, r) :: l).map (·.1)) → ∀ e, POp.drop k e ∉ l.map (·.1) :=
      fun h e hm => h e (List.mem_cons_of_mem _ hm)
    have keep : ∀ (k : Nat) (d : String), σ.handles[k]? = some (d, true) → (∀ e, op ≠ .drop k e) → σ'.handles[k]? = some (d, true) := by
      intro k d hk hop
      cases hs with
      | new _ _ => rw [List.getElem?_append_left (lt_of_getElem? hk)]; exact hk
      | refused _ _ => exact hk
      | broken _ => exact hk
      | call _ _ => exact hk
      | @drop k' d' h =>
        rw [List.getElem?_set_ne]
        · exact hk
        · rintro rfl; exact hop d' rfl
    refine ⟨fun k d hk hn => ih1 k d (keep k d hk fun e he => hn e (by simp [he])) (hd' hn), fun k d hm hn => ?_⟩
    rcases List.mem_cons.1 hm with hm | hm
    · injection hm with h1 h2
      subst h1
      subst h2
      cases hs with
      | new _ _ => exact ih1 _ d (by simp) (hd' hn)
    · exact ih2 k d hm (hd' hn)

namespace Proc

variable {ι : Type}

/-- Invariant of a run. -/
structure PInv (E : Env ι) (S : Sys ι) (J : Nat → ι → Prop) (K : Nat) (S0 : Nat → Store) (s : Proc ι) (h : List (HEv POp PRes)) (L : List (Nat × POp × PRes))
    (p : SeqProc) (cs : Nat → List Mutation) : Prop where
  hist : Multi.HInv (SeqBehaves S.dirOk S.fileOf) { maps := S0 } s.Waits s.Ready h L p
  cur : ∀ (t : Nat) (op : POp) (st : Stage), s.th t = .busy op st → ∃ pos, Pending h t pos op
  base : Base E S J K S0 (fun d => ∃ t, .inv t (.new d) ∈ h) s.w cs
  thr : Thr s
  maps : p.maps = fun f => (S0 f).run (cs f)
  handles : p.handles = s.w.handles.map fun hd => (hd.dir, hd.st == .live)
  broken : p.broken = s.w.poisoned
  calls : ∀ f, cs f = mutationsOn S.fileOf f L

theorem mutations_snoc (fileOf : String → Nat) (f : Nat) (L : List (Nat × POp × PRes)) (pos : Nat) {op : POp} (r : PRes) (h : ∀ k d m, op ≠ .on k d (.mut m)) :
    mutationsOn fileOf f (L ++ [(pos, op, r)]) = mutationsOn fileOf f L := by
  rw [mutationsOn, List.filterMap_append]
  have : ([(pos, op, r)] : List (Nat × POp × PRes)).filterMap (mutationOn fileOf f) = [] := by
    rw [List.filterMap_cons, List.filterMap_nil]
    cases op with
    | on k d o =>
      cases o with
      | «mut» m => exact absurd rfl (h k d m)
      | get => rfl
    | _ => rfl
  rw [this, List.append_nil]; rfl

theorem goto_th (s : Proc ι) (t u : Nat) (x : PSt) : (s.goto t x).th u = if u = t then x else s.th u := rfl

/-- A thread goes on without taking effect. -/
theorem hist_quiet {S : Sys ι} {S0 : Nat → Store} {s s' : Proc ι} {h : List (HEv POp PRes)} {L : List (Nat × POp × PRes)} {p : SeqProc} {t : Nat} {op : POp}
    {st st' : Stage} (hi : Multi.HInv (SeqBehaves S.dirOk S.fileOf) { maps := S0 } s.Waits s.Ready h L p) (ht : s.th t = .busy op st)
    (hs : s'.th = (s.goto t (.busy op st')).th) (ho : out op st' = out op st) :
    Multi.HInv (SeqBehaves S.dirOk S.fileOf) { maps := S0 } s'.Waits s'.Ready h L p := by
  refine Multi.hinv_quiet hi ?_ ?_
  · rintro u op' ⟨x, h1, h2⟩
    rw [hs, goto_th] at h1
    split at h1
    · rename_i hu; subst hu
      injection h1 with h1 h3; subst h1 h3
      exact ⟨st, ht, by rw [← ho]; exact h2⟩
    · exact ⟨x, h1, h2⟩
  · intro u r
    by_cases hu : u = t
    · subst hu
      constructor
      · rintro ⟨op', x, h1, h2⟩
        rw [hs, goto_th, if_pos rfl] at h1
        injection h1 with h1 h3; subst h1 h3
        exact ⟨op, st, ht, by rw [← ho]; exact h2⟩
      · rintro ⟨op', x, h1, h2⟩
        rw [ht] at h1
        injection h1 with h1 h3; subst h1 h3
        exact ⟨op, st', by rw [hs, goto_th, if_pos rfl], by rw [ho]; exact h2⟩
    · simp only [Ready, hs, goto_th, if_neg hu]

/-- A call takes effect. -/
theorem hist_point {S : Sys ι} {S0 : Nat → Store} {s s' : Proc ι} {h : List (HEv POp PRes)} {L : List (Nat × POp × PRes)} {p p' : SeqProc} {t : Nat}
    {op : POp} {st st' : Stage} {r : PRes} (hi : Multi.HInv (SeqBehaves S.dirOk S.fileOf) { maps := S0 } s.Waits s.Ready h L p)
    (ht : s.th t = .busy op st) (hs : s'.th = (s.goto t (.busy op st')).th) (ho : out op st = none) (ho' : out op st' = some r)
    (hb : SeqBehaves S.dirOk S.fileOf p op r p') :
    ∃ pos, Multi.HInv (SeqBehaves S.dirOk S.fileOf) { maps := S0 } s'.Waits s'.Ready h (L ++ [(pos, op, r)]) p' := by
  have hnr : ∀ r', ¬ s.Ready t r' := by
    rintro r' ⟨op', x, h1, h2⟩
    rw [ht] at h1
    injection h1 with h1 h3; subst h1 h3
    rw [ho] at h2; cases h2
  refine Multi.hinv_point_at hi (t := t) (op := op) (r := r) ⟨st, ht, ho⟩ hb hnr ?_ ?_
  · rintro u op' ⟨x, h1, h2⟩
    rw [hs, goto_th] at h1
    split at h1
    · injection h1 with h1 h3; subst h1 h3
      rw [ho'] at h2; cases h2
    · exact ⟨by assumption, x, h1, h2⟩
  · intro u r'
    by_cases hu : u = t
    · subst hu
      simp only [hnr, false_or, true_and]
      constructor
      · rintro ⟨op', x, h1, h2⟩
        rw [hs, goto_th, if_pos rfl] at h1
        injection h1 with h1 h3; subst h1 h3
        rw [ho'] at h2; injection h2 with h2; exact h2.symm
      · rintro rfl
        exact ⟨op, st', by rw [hs, goto_th, if_pos rfl], ho'⟩
    · simp only [Ready, hs, goto_th, hu, if_false, false_and, or_false]

theorem cur_goto {s s' : Proc ι} {h : List (HEv POp PRes)} {t : Nat} {op : POp} {st st' : Stage}
    (hc : ∀ (t : Nat) (op : POp) (st : Stage), s.th t = .busy op st → ∃ pos, Pending h t pos op) (ht : s.th t = .busy op st)
    (hs : s'.th = (s.goto t (.busy op st')).th) : ∀ (t : Nat) (op : POp) (st : Stage), s'.th t = .busy op st → ∃ pos, Pending h t pos op := by
  intro u op' x hu
  rw [hs, goto_th] at hu
  split at hu
  · rename_i hut; subst hut
    injection hu with h1 _; subst h1
    exact hc u op st ht
  · exact hc u op' x hu

/-- A thread that is not in a drop goes on, with a step of the world that is not a drop. -/
theorem thr_go {S : Sys ι} {s s' : Proc ι} {e : WEv ι} {r : WRes} {t : Nat} {op : POp} {st st' : Stage} (hi : Thr s)
    (ht : s.th t = .busy op st) (hs : s'.th = (s.goto t (.busy op st')).th) (hst : World.step S s.w e = some (s'.w, r))
    (h1 : ∀ j, e ≠ .drop1 j) (h2 : ∀ j, e ≠ .drop2 j) (hop : ∀ k d, op ≠ .drop k d) (hget : ∀ h d k tok, op ≠ .on h d (.get k tok))
    (hrd : s'.readers = s.readers)
    (hno : ∀ (k : Nat) (d : String) (m : Mutation) (hd : Handle), e = .call k d m → s.w.handles[k]? = some hd → ∀ u ∈ s.readers, hd.obj ≠ u.2) :
    Thr s' := by
  refine thr_step hi hst h1 h2 ?_ ?_ ?_ hrd hno
  · intro u k d x hu
    rw [hs, goto_th]
    split
    · rename_i hut; subst hut
      rw [ht] at hu; injection hu with hu _; exact absurd hu (hop k d)
    · exact hu
  · intro u op' x hu
    rw [hs, goto_th] at hu
    split at hu
    · rename_i hut; subst hut
      injection hu with hu _; subst hu; exact ⟨st, ht⟩
    · exact ⟨x, hu⟩
  · intro u h d k tok hu
    rw [hs, goto_th] at hu
    split at hu
    · injection hu with hu _; exact absurd hu (hget h d k tok)
    · exact hu

theorem thr_drop1 {S : Sys ι} {s : Proc ι} {w : World ι} {t k : Nat} {d : String} {r : PRes} {x : WRes} (hi : Thr s)
    (ht : s.th t = .busy (.drop k d) .start) (hst : World.step S s.w (.drop1 k) = some (w, x)) :
    Thr (({ s with w } : Proc ι).goto t (.busy (.drop k d) (.unlisted r))) ∧
      ∃ hd, s.w.handles[k]? = some hd ∧ hd.st = .live ∧ hd.dir = d ∧ w.handles = s.w.handles.set k { hd with st := .unlisted } ∧ w.poisoned = s.w.poisoned ∧
        w.objs = s.w.objs ∧ x = if s.w.poisoned then .panic else .quiet := by
  have hst0 := hst
  simp only [World.step] at hst
  split at hst
  · cases hst
  rename_i hd hk
  split at hst
  · cases hst
  rename_i hn
  have hl : hd.st = .live := Decidable.byContradiction fun h => hn (.inl h)
  obtain ⟨hd2, g1, g2⟩ := hi.dir t _ _ k d ht rfl
  rw [hk] at g1; injection g1 with g1; subst g1
  have hw : w.handles = s.w.handles.set k { hd with st := .unlisted } ∧ w.poisoned = s.w.poisoned ∧ w.objs = s.w.objs ∧
      x = if s.w.poisoned then .panic else .quiet := by
    split at hst
    · rename_i hp
      injection hst with hst; injection hst with h1 h2; subst h1 h2; exact ⟨rfl, rfl, rfl, by simp [hp]⟩
    · rename_i hp
      injection hst with hst; injection hst with h1 h2; subst h1 h2; exact ⟨rfl, rfl, rfl, by simp [hp]⟩
  obtain ⟨w1, w2, w3, w4⟩ := hw
  refine ⟨?_, hd, hk, hl, g2, w1, w2, w3, w4⟩
  constructor
  · intro j hd' hj hu
    have hj : w.handles[j]? = some hd' := hj
    rw [w1] at hj
    rcases getElem?_set_cases hj with ⟨rfl, rfl⟩ | ⟨hjk, hj⟩
    · exact ⟨t, r, by simp [goto_th, g2]⟩
    · obtain ⟨u, r', hu'⟩ := hi.unl j hd' hj hu
      refine ⟨u, r', ?_⟩
      rw [goto_th, if_neg]
      · exact hu'
      · rintro rfl; rw [ht] at hu'; injection hu' with _ h; cases h
  · intro o ob ho hp hx
    have ho : w.objs[o]? = some ob := ho
    rw [w3] at ho
    obtain ⟨u, j, r', hu'⟩ := hi.clo o ob ho hp hx
    refine ⟨u, j, r', ?_⟩
    rw [goto_th, if_neg]
    · exact hu'
    · rintro rfl; rw [ht] at hu'; injection hu' with _ h; cases h
  · intro u op st j d' hu hv
    have hold : ∃ st', s.th u = .busy op st' := by
      rw [goto_th] at hu
      split at hu
      · rename_i hut; subst hut
        injection hu with h1 _; subst h1; exact ⟨_, ht⟩
      · exact ⟨st, hu⟩
    obtain ⟨st', hold⟩ := hold
    obtain ⟨hd', g3, g4⟩ := hi.dir u op st' j d' hold hv
    obtain ⟨hd'', g5, _, g6, _⟩ := handles_step hst0 g3
    exact ⟨hd'', g5, g6.trans g4⟩
  · intro u hu ob ho
    have ho : w.objs[u.2]? = some ob := ho
    rw [w3] at ho
    exact hi.rdr u hu ob ho
  · intro u h d' k' tok hu
    rw [goto_th] at hu
    split at hu
    · injection hu with hu _; cases hu
    · obtain ⟨hd', g3, g4⟩ := hi.inr u h d' k' tok hu
      obtain ⟨hd'', g5, g6, _⟩ := handles_step hst0 g3
      exact ⟨hd'', g5, by rw [g6]; exact g4⟩

theorem thr_drop2 {S : Sys ι} {s : Proc ι} {w : World ι} {t k : Nat} {d : String} {r : PRes} {x : WRes} {hd : Handle} (hi : Thr s) (R : Reg S s.w)
    (hk : s.w.handles[k]? = some hd) (ht : s.th t = .busy (.drop k d) (.unlisted r)) (hst : World.step S s.w (.drop2 k) = some (w, x)) :
    Thr (({ s with w } : Proc ι).goto t (.busy (.drop k d) (if w.strong hd.obj = 0 then .joining hd.obj r else .done r))) ∧
      hd.st = .unlisted ∧ w.handles = s.w.handles.set k { hd with st := .gone } ∧ w.poisoned = s.w.poisoned := by
  have R' := R.step hst
  have hst0 := hst
  simp only [World.step, hk] at hst
  split at hst
  · cases hst
  rename_i hn
  have hl : hd.st = .unlisted := Decidable.byContradiction fun h => hn h
  obtain ⟨hd2, g1, g2⟩ := hi.dir t _ _ k d ht rfl
  rw [hk] at g1; injection g1 with g1; subst g1
  have hw : w.handles = s.w.handles.set k { hd with st := .gone } ∧ w.poisoned = s.w.poisoned := by
    split at hst
    · rw [Option.map_eq_some_iff] at hst
      obtain ⟨⟨w1, r1⟩, h1, h2⟩ := hst
      injection h2 with h2 h3; subst h2
      obtain ⟨_, _, _, _, rfl⟩ := stepObj_eq h1
      exact ⟨rfl, rfl⟩
    · injection hst with hst; injection hst with h1 h2; subst h1; exact ⟨rfl, rfl⟩
  obtain ⟨w1, w2⟩ := hw
  refine ⟨?_, hl, w1, w2⟩
  constructor
  · intro j hd' hj hu
    have hj : w.handles[j]? = some hd' := hj
    rw [w1] at hj
    rcases getElem?_set_cases hj with ⟨rfl, rfl⟩ | ⟨hjk, hj⟩
    · cases hu
    · obtain ⟨u, r', hu'⟩ := hi.unl j hd' hj hu
      refine ⟨u, r', ?_⟩
      rw [goto_th, if_neg]
      · exact hu'
      · rintro rfl; rw [ht] at hu'; injection hu' with h _; injection h with h _; exact hjk h.symm
  · intro o ob ho hp hx
    have ho : w.objs[o]? = some ob := ho
    rcases closing_step hst0 ho hp hx with ⟨ob0, q1, q2, q3, q4⟩ | ⟨j, hd', he, hj, hjo⟩
    · obtain ⟨u, j, r', hu'⟩ := hi.clo o ob0 q1 q3 q4
      refine ⟨u, j, r', ?_⟩
      rw [goto_th, if_neg, ← q2]
      · exact hu'
      · rintro rfl; rw [ht] at hu'; injection hu' with _ h; cases h
    · injection he with he; subst he
      rw [hk] at hj; injection hj with hj; subst hj; subst hjo
      have h0 := (R'.closed ho).1 hp
      obtain ⟨hd3, q1, q2, q3, _⟩ := handles_step hst0 hk
      obtain ⟨ob3, q4, q5⟩ := R'.hobj q1
      rw [q2, ho] at q4; injection q4 with q4; subst q4
      have hdir : ob.dir = d := by rw [q5, q3]; exact g2
      exact ⟨t, k, r, by simp [goto_th, h0, hdir]⟩
  · intro u op st j d' hu hv
    have hold : ∃ st', s.th u = .busy op st' := by
      rw [goto_th] at hu
      split at hu
      · rename_i hut; subst hut
        injection hu with h1 _; subst h1; exact ⟨_, ht⟩
      · exact ⟨st, hu⟩
    obtain ⟨st', hold⟩ := hold
    obtain ⟨hd', g3, g4⟩ := hi.dir u op st' j d' hold hv
    obtain ⟨hd'', g5, _, g6, _⟩ := handles_step hst0 g3
    exact ⟨hd'', g5, g6.trans g4⟩
  · intro u hu ob ho
    exact resting_step hst0 ho (hi.rdr u hu) (by simp)
  · intro u h d' k' tok hu
    rw [goto_th] at hu
    split at hu
    · injection hu with hu _; cases hu
    · obtain ⟨hd', g3, g4⟩ := hi.inr u h d' k' tok hu
      obtain ⟨hd'', g5, g6, _⟩ := handles_step hst0 g3
      exact ⟨hd'', g5, by rw [g6]; exact g4⟩

/-- While `new` of a directory runs, every store on it that the registry does not give out has finished closing. -/
theorem calm_of_apart {E : Env ι} {S : Sys ι} {J : Nat → ι → Prop} {K : Nat} {S0 : Nat → Store} {s : Proc ι} {h : List (HEv POp PRes)} {L : List (Nat × POp × PRes)}
    {p : SeqProc} {cs : Nat → List Mutation} (hi : PInv E S J K S0 s h L p cs) (ha : Apart h) (ho : OneSpelling S.fileOf h) {t : Nat} {d : String}
    {st : Stage} (ht : s.th t = .busy (.new d) st) (i : ι) : Calm S s.w (.create d i) := by
  intro hu o ob hob hf
  obtain ⟨pos, hpos⟩ := hi.cur t _ _ ht
  have hd : ob.dir = d := by
    obtain ⟨u, hu'⟩ := (hi.base.used o ob hob).2
    exact ho u t ob.dir d hu' (List.mem_of_getElem? hpos.1) hf
  subst hd
  have hno : ∀ (u k : Nat) (x : Stage), s.th u = .busy (.drop k ob.dir) x → False := by
    intro u k x hu'
    obtain ⟨q, hq⟩ := hi.cur u _ _ hu'
    have hkept := ha h.length t u pos q k ob.dir (by rw [List.take_of_length_le (Nat.le_refl _)]; exact hpos)
      (by rw [List.take_of_length_le (Nat.le_refl _)]; exact hq)
    rw [List.take_of_length_le (Nat.le_refl _)] at hkept
    obtain ⟨i1, j1, k1, hret, hnd⟩ := hkept
    have hin := hi.hist.lin.complete _ _ _ _ hret
    have huse := (seq_in_use hi.hist.lin.legal).2 k1 ob.dir (List.mem_map.2 ⟨_, hin, rfl⟩) (by
      intro e hm
      rw [List.map_map] at hm
      obtain ⟨x, hx, hxe⟩ := List.mem_map.1 hm
      obtain ⟨v, hv⟩ := hi.hist.lin.invoked x hx
      simp only [Function.comp_apply] at hxe
      rw [hxe] at hv
      exact hnd v e (List.mem_of_getElem? hv))
    rw [hi.handles, List.getElem?_map, Option.map_eq_some_iff] at huse
    obtain ⟨hd, hk, hde⟩ := huse
    injection hde with e1 e2
    exact hi.base.reg.no_live hu hk (by simpa using e2) e1
  have hcl : ob.inst.phase = .closed := by
    rw [hi.base.reg.closed hob]
    refine Decidable.byContradiction fun hne => ?_
    have hpos : 0 < s.w.strong o := Nat.pos_of_ne_zero hne
    unfold strong at hpos
    rw [List.countP_pos_iff] at hpos
    obtain ⟨hd, hm, hc⟩ := hpos
    simp only [Bool.and_eq_true, beq_iff_eq, bne_iff_ne, ne_eq] at hc
    obtain ⟨hc1, hc2⟩ := hc
    obtain ⟨k, hk⟩ := List.getElem?_of_mem hm
    obtain ⟨ob2, g1, g2⟩ := hi.base.reg.hobj hk
    rw [hc1, hob] at g1; injection g1 with g1; subst g1
    cases hst : hd.st with
    | live => exact hi.base.reg.no_live hu hk hst g2.symm
    | unlisted =>
      obtain ⟨u, r, hu'⟩ := hi.thr.unl k hd hk hst
      rw [← g2] at hu'
      exact hno u k _ hu'
    | gone => exact hc2 hst
  refine ⟨hcl, Decidable.byContradiction fun hx => ?_⟩
  obtain ⟨u, k, r, hu'⟩ := hi.thr.clo o ob hob hcl hx
  exact hno u k _ hu'

theorem set_same {α : Type} {l : List α} {k : Nat} {a : α} (h : l[k]? = some a) : l.set k a = l := by
  apply List.ext_getElem?
  intro i
  by_cases hi : i = k
  · subst hi; rw [List.getElem?_set_self (getElem?_lt h), h]
  · rw [List.getElem?_set_ne (fun e => hi e.symm)]

theorem calls_none {S : Sys ι} {e : WEv ι} (cs : Nat → List Mutation) (h : ∀ k d m, e ≠ .call k d m) : (fun f => cs f ++ callsOf S f [e]) = cs := by
  funext f
  rw [callsOf_not_call S f h, List.append_nil]

theorem lookup_cases {S : Sys ι} {w w' : World ι} {d : String} {r : WRes} (h : World.step S w (.lookup d) = some (w', r)) :
    (w.poisoned = true ∧ w' = w ∧ r = .panic) ∨ (w.poisoned = false ∧ w' = w ∧ r = .miss) ∨
      (w.poisoned = false ∧ ∃ o, w.upgrade d = some o ∧ w' = { w with handles := w.handles ++ [{ dir := d, obj := o }] } ∧ r = .handle w.handles.length) := by
  simp only [World.step] at h
  split at h
  · rename_i hp
    injection h with h; injection h with h1 h2; exact .inl ⟨hp, h1.symm, h2.symm⟩
  · rename_i hp
    have hp : w.poisoned = false := by simpa using hp
    split at h
    · rename_i o ho
      simp only [World.addHandle] at h
      injection h with h; injection h with h1 h2; exact .inr (.inr ⟨hp, o, ho, h1.symm, h2.symm⟩)
    · injection h with h; injection h with h1 h2; exact .inr (.inl ⟨hp, h1.symm, h2.symm⟩)

theorem create_cases {E : Env ι} {S : Sys ι} {J : Nat → ι → Prop} {K : Nat} {S0 : Nat → Store} {U : String → Prop} {cs : Nat → List Mutation} {w w' : World ι} {d : String} {i : ι}
    {r : WRes} (hcod : S.codecs = E.codecs) (hpg : S.page = E.page) (hkey : (WEv.create d i).Keyed S J w) (hb : Base E S J K S0 U w cs)
    (hcalm : Calm S w (.create d i)) (h : World.step S w (.create d i) = some (w', r)) :
    (w.poisoned = true ∧ w' = w ∧ r = .panic) ∨ (w.poisoned = false ∧ S.dirOk d = false ∧ w' = { w with poisoned := true } ∧ r = .panic) ∨
      (w.poisoned = false ∧ S.dirOk d = true ∧ w'.poisoned = false ∧ (∃ o, w'.handles = w.handles ++ [{ dir := d, obj := o }]) ∧ r = .handle w.handles.length) := by
  obtain ⟨t1, t2, t3, t4⟩ := touch_objs w S.page (S.fileOf d)
  have hcont := touch_content hb.reg S.page (S.fileOf d)
  simp only [World.step] at h
  split at h
  · rename_i hp
    injection h with h; injection h with h1 h2; exact .inl ⟨hp, h1.symm, h2.symm⟩
  rename_i hp
  have hp : w.poisoned = false := by simpa using hp
  split at h
  · rename_i o ho
    simp only [World.addHandle] at h
    injection h with h; injection h with h1 h2
    obtain ⟨hm, hs⟩ := upgrade_eq ho
    obtain ⟨ob, g1, g2⟩ := hb.reg.mapOk hm
    have hok := (hb.used o ob g1).1
    rw [g2] at hok
    exact .inr (.inr ⟨hp, hok, by rw [← h1]; exact hp, ⟨o, by rw [← h1]⟩, h2.symm⟩)
  rename_i hu
  split at h
  · rename_i hd
    injection h with h; injection h with h1 h2; exact .inr (.inl ⟨hp, hd, h1.symm, h2.symm⟩)
  rename_i hd
  have hd : S.dirOk d = true := by simpa using hd
  obtain ⟨s, hs, _, _⟩ := Inst.dinv_open (i := i) ((hb.file (S.fileOf d)).at_rest (hcalm hu) (hkey hu).2)
  have hop : Inst.openAt S.codecs i S.page ((w.touch S.page (S.fileOf d)).1.content (w.touch S.page (S.fileOf d)).2) = some s := by
    rw [hcont, openAt_configNew, hcod, hpg]; exact hs
  generalize w.touch S.page (S.fileOf d) = tw at h t1 t2 t3 t4 hop
  obtain ⟨w2, n⟩ := tw
  simp only at h t1 t2 t3 t4 hop
  rw [if_neg (by rw [(hkey hu).1]; simp), hop] at h
  simp only [World.addHandle] at h
  injection h with h; injection h with h1 h2
  subst h1
  exact .inr (.inr ⟨hp, hd, t4.trans hp, ⟨w2.objs.length, by simp only [t2]⟩, by rw [← h2, t2]⟩)

section
variable {E : Env ι} {S : Sys ι} {J : Nat → ι → Prop} {K : Nat} {S0 : Nat → Store} {s : Proc ι} {h : List (HEv POp PRes)} {L : List (Nat × POp × PRes)}
  {p : SeqProc} {cs : Nat → List Mutation}

theorem handles_live (hi : PInv E S J K S0 s h L p cs) {k : Nat} {hd : Handle} (hk : s.w.handles[k]? = some hd) (hl : hd.st = .live) :
    p.handles[k]? = some (hd.dir, true) := by
  rw [hi.handles, List.getElem?_map, hk]
  simp [hl]

/-- Effect of a mutating call. -/
theorem mut_behaves (hi : PInv E S J K S0 s h L p cs) {k : Nat} {d : String} {hd : Handle} (hk : s.w.handles[k]? = some hd) (hl : hd.st = .live)
    (hdir : hd.dir = d) (m : Mutation) :
    ∃ p', SeqBehaves S.dirOk S.fileOf p (.on k d (.mut m)) (.res (.ok none)) p' ∧
      p'.maps = (fun f => (S0 f).run (cs f ++ callsOf S f [.call k d m])) ∧ p'.handles = p.handles ∧ p'.broken = p.broken := by
  refine ⟨_, .call (hdir ▸ handles_live hi hk hl) (T := (p.maps (S.fileOf d)).apply m) ⟨rfl, rfl⟩, ?_, rfl, rfl⟩
  funext f
  simp only [hi.maps, callsOf, List.filterMap_cons, List.filterMap_nil]
  by_cases hf : f = S.fileOf d
  · subst hf; simp [Store.run]
  · have : ¬ S.fileOf d = f := fun e => hf e.symm
    simp [hf, this]

/-- The steps of the process open stores with a valid key, and existing files with the nonce they were written with. -/
def PrKeyed (S : Sys ι) (J : Nat → ι → Prop) (s : Proc ι) : PrEv ι → Prop
  | .go t i => (∀ d, s.th t = .busy (.new d) .missed → s.w.upgrade d = none → S.keyOk i = true ∧ Mmkv.Keyed S J s.w (S.fileOf d) i) ∧
      ∀ k d m, s.th t = .busy (.on k d (.mut m)) .locked → S.keyOk i = true
  | _ => True

/-- Every step of a schedule does. -/
def PrKeyedRun (S : Sys ι) (J : Nat → ι → Prop) : Proc ι → List (PrEv ι) → Prop
  | _, [] => True
  | s, e :: es => PrKeyed S J s e ∧ ∀ s' v, s.step S e = some (s', v) → PrKeyedRun S J s' es

theorem prKeyedRun_unit {S : Sys Unit} (h : S.keyOk () = true) (es : List (PrEv Unit)) : ∀ s : Proc Unit, PrKeyedRun S (fun _ _ => True) s es := by
  induction es with
  | nil => exact fun _ => trivial
  | cons e es ih =>
    refine fun s => ⟨?_, fun s' _ _ => ih s'⟩
    cases e with
    | go t i => exact ⟨fun _ _ _ => ⟨h, fun _ => trivial, fun _ _ _ _ _ => rfl⟩, fun _ _ _ _ => h⟩
    | _ => trivial

variable (hcod : S.codecs = E.codecs) (hpg : S.page = E.page)
include hcod hpg

/-- A thread goes on with its call. -/
theorem pinv_go {s' : Proc ι} {t : Nat} {i : ι} (hkey : PrKeyed S J s (.go t i)) (hi : PInv E S J K S0 s h L p cs) (hroom : ∀ f, E.Room (K + (cs f).length)) (ha : Apart h)
    (ho : OneSpelling S.fileOf h) (hfit : ∀ (t k : Nat) (d : String) (m : Mutation), .inv t (.on k d (.mut m)) ∈ h → (evOf m : Ev ι).Ok E)
    (hs : s.go S t i = some s') :
    ∃ L' p' cs', PInv E S J K S0 s' h L' p' cs' ∧ ∀ f, (cs' f).length ≤ (cs f).length + 1 := by
  have hlen : ∀ (e : WEv ι) (f : Nat), (cs f ++ callsOf S f [e]).length ≤ (cs f).length + 1 := by
    intro e f
    have : (callsOf S f [e]).length ≤ 1 := by unfold callsOf; exact List.length_filterMap_le _ _
    rw [List.length_append]; omega
  unfold go at hs
  split at hs
  · -- `new`, look-up
    rename_i d ht
    rw [Option.bind_eq_some_iff] at hs
    obtain ⟨⟨w, r⟩, hst, hs⟩ := hs
    have hb := (base_step hcod hpg trivial hi.base (e := .lookup d) trivial trivial (by simp) hroom hst).2
    rw [calls_none cs (by simp)] at hb
    rcases lookup_cases hst with ⟨g1, g2, rfl⟩ | ⟨g1, g2, rfl⟩ | ⟨g1, o, g2, g3, rfl⟩
    · simp only [opened, Option.some.injEq] at hs; subst hs
      obtain ⟨pos', hL⟩ := hist_point (s' := ({ s with w } : Proc ι).goto t (.busy (.new d) (.done .panicked))) hi.hist ht rfl rfl rfl
        (.broken (hi.broken.trans g1))
      exact ⟨_, p, cs, ⟨hL, cur_goto hi.cur ht rfl, hb, thr_go (st' := .done .panicked) hi.thr ht rfl hst (by simp) (by simp) (by simp) (by simp) rfl (by simp), hi.maps,
        by rw [hi.handles]; simp only [goto, g2], by rw [hi.broken]; simp only [goto, g2], fun f => by rw [mutations_snoc _ _ _ _ _ (by simp)]; exact hi.calls f⟩, fun f => by omega⟩
    · simp only [opened, Option.some.injEq] at hs; subst hs
      exact ⟨L, p, cs, ⟨hist_quiet (st' := .missed) hi.hist ht rfl rfl, cur_goto hi.cur ht rfl, hb, thr_go (st' := .missed) hi.thr ht rfl hst (by simp) (by simp) (by simp) (by simp) rfl (by simp),
        hi.maps, by rw [hi.handles]; simp only [goto, g2], by rw [hi.broken]; simp only [goto, g2], hi.calls⟩, fun f => by omega⟩
    · simp only [opened, Option.some.injEq] at hs; subst hs
      obtain ⟨hm, _⟩ := upgrade_eq g2
      obtain ⟨ob, q1, q2⟩ := hi.base.reg.mapOk hm
      have hok := (hi.base.used o ob q1).1
      rw [q2] at hok
      have hlen' : p.handles.length = s.w.handles.length := by rw [hi.handles]; simp
      obtain ⟨pos', hL⟩ := hist_point (s' := ({ s with w } : Proc ι).goto t (.busy (.new d) (.done (.handle s.w.handles.length)))) (st' := .done (.handle s.w.handles.length)) hi.hist ht rfl rfl
        (by rw [← hlen']; rfl) (.new (hi.broken.trans g1) hok)
      refine ⟨_, _, cs, ⟨hL, cur_goto hi.cur ht rfl, hb, thr_go (st' := .done (.handle s.w.handles.length)) hi.thr ht rfl hst (by simp) (by simp) (by simp) (by simp) rfl (by simp), hi.maps,
        ?_, ?_, fun f => by rw [mutations_snoc _ _ _ _ _ (by simp)]; exact hi.calls f⟩, fun f => by omega⟩
      · simp only [goto, g3, hi.handles, List.map_append, List.map_cons, List.map_nil]; rfl
      · simp only [goto, g3]; exact hi.broken
  · -- `new`, creation
    rename_i d ht
    rw [Option.bind_eq_some_iff] at hs
    obtain ⟨⟨w, r⟩, hst, hs⟩ := hs
    have hcalm := calm_of_apart hi ha ho ht i
    obtain ⟨pos, hpos⟩ := hi.cur t _ _ ht
    have hkc : (WEv.create d i).Keyed S J s.w := fun hu => hkey.1 d ht hu
    have hb := (base_step hcod hpg hkc hi.base (e := .create d i) trivial hcalm
      (by intro d' i' he; injection he with he _; subst he; exact ⟨t, List.mem_of_getElem? hpos.1⟩) hroom hst).2
    rw [calls_none cs (by simp)] at hb
    rcases create_cases hcod hpg hkc hi.base hcalm hst with ⟨g1, g2, rfl⟩ | ⟨g1, g2, g3, rfl⟩ | ⟨g1, g2, g3, ⟨o, g4⟩, rfl⟩
    · simp only [opened, Option.some.injEq] at hs; subst hs
      obtain ⟨pos', hL⟩ := hist_point (s' := ({ s with w } : Proc ι).goto t (.busy (.new d) (.done .panicked))) hi.hist ht rfl rfl rfl
        (.broken (hi.broken.trans g1))
      exact ⟨_, p, cs, ⟨hL, cur_goto hi.cur ht rfl, hb, thr_go (st' := .done .panicked) hi.thr ht rfl hst (by simp) (by simp) (by simp) (by simp) rfl (by simp), hi.maps,
        by rw [hi.handles]; simp only [goto, g2], by rw [hi.broken]; simp only [goto, g2], fun f => by rw [mutations_snoc _ _ _ _ _ (by simp)]; exact hi.calls f⟩, fun f => by omega⟩
    · simp only [opened, Option.some.injEq] at hs; subst hs
      obtain ⟨pos', hL⟩ := hist_point (s' := ({ s with w } : Proc ι).goto t (.busy (.new d) (.done .panicked))) hi.hist ht rfl rfl rfl
        (.refused (hi.broken.trans g1) g2)
      exact ⟨_, _, cs, ⟨hL, cur_goto hi.cur ht rfl, hb, thr_go (st' := .done .panicked) hi.thr ht rfl hst (by simp) (by simp) (by simp) (by simp) rfl (by simp), hi.maps,
        by simp only [goto, g3]; exact hi.handles, by simp only [goto, g3], fun f => by rw [mutations_snoc _ _ _ _ _ (by simp)]; exact hi.calls f⟩, fun f => by omega⟩
    · simp only [opened, Option.some.injEq] at hs; subst hs
      have hlen' : p.handles.length = s.w.handles.length := by rw [hi.handles]; simp
      obtain ⟨pos', hL⟩ := hist_point (s' := ({ s with w } : Proc ι).goto t (.busy (.new d) (.done (.handle s.w.handles.length)))) (st' := .done (.handle s.w.handles.length)) hi.hist ht rfl rfl
        (by rw [← hlen']; rfl) (.new (hi.broken.trans g1) g2)
      refine ⟨_, _, cs, ⟨hL, cur_goto hi.cur ht rfl, hb, thr_go (st' := .done (.handle s.w.handles.length)) hi.thr ht rfl hst (by simp) (by simp) (by simp) (by simp) rfl (by simp), hi.maps,
        ?_, ?_, fun f => by rw [mutations_snoc _ _ _ _ _ (by simp)]; exact hi.calls f⟩, fun f => by omega⟩
      · simp only [goto, g4, hi.handles, List.map_append, List.map_cons, List.map_nil]; rfl
      · simp only [goto, g3]; exact hi.broken.trans g1
  · -- a mutating call takes the lock
    rename_i k d m ht
    split at hs
    · cases hs
    rename_i hd hk
    split at hs
    rotate_left
    · cases hs
    rename_i hrd
    rw [Option.bind_eq_some_iff] at hs
    obtain ⟨⟨w, r⟩, hst, hs⟩ := hs
    have hlv : hd.st = .live ∧ hd.dir = d := by
      have hst' := hst
      simp only [World.step, hk] at hst'
      split at hst'
      · cases hst'
      · rename_i hn
        exact ⟨Decidable.byContradiction fun h => hn (.inl h), Decidable.byContradiction fun h => hn (.inr (.inl h))⟩
    obtain ⟨pos, hpos⟩ := hi.cur t _ _ ht
    obtain ⟨hret, hb⟩ := base_step hcod hpg trivial hi.base (e := .call k d m) (hfit t k d m (List.mem_of_getElem? hpos.1)) trivial (by simp) hroom hst
    obtain ⟨p', hb1, hb2, hb3, hb4⟩ := mut_behaves hi hk hlv.1 hlv.2 m
    obtain ⟨a1, a2⟩ := act_same hst (.inl ⟨_, _, _, rfl⟩)
    have hno : ∀ (k' : Nat) (d' : String) (m' : Mutation) (hd' : Handle), (WEv.call k d m : WEv ι) = .call k' d' m' → s.w.handles[k']? = some hd' →
        ∀ u ∈ s.readers, hd'.obj ≠ u.2 := by
      intro k' d' m' hd' he hk' u hu
      injection he with he _ _; subst he
      rw [hk] at hk'; injection hk' with hk'; subst hk'
      have := List.all_eq_true.1 hrd u hu
      simp only [bne_iff_ne, ne_eq] at this
      exact fun e => this e.symm
    have fin : ∀ st', out (.on k d (.mut m)) st' = some (.res (.ok none)) → s' = ({ s with w } : Proc ι).goto t (.busy (.on k d (.mut m)) st') →
        ∃ L' p' cs', PInv E S J K S0 s' h L' p' cs' ∧ ∀ f, (cs' f).length ≤ (cs f).length + 1 := by
      rintro st' hout rfl
      obtain ⟨pos', hL⟩ := hist_point (s' := ({ s with w } : Proc ι).goto t (.busy (.on k d (.mut m)) st')) hi.hist ht rfl rfl hout hb1
      have hcalls : ∀ f, cs f ++ callsOf S f [.call k d m] = mutationsOn S.fileOf f (L ++ [(pos', .on k d (.mut m), .res (.ok none))]) := by
        intro f
        rw [mutationsOn, List.filterMap_append, hi.calls f]; rfl
      exact ⟨_, p', _, ⟨hL, cur_goto hi.cur ht rfl, hb, thr_go hi.thr ht rfl hst (by simp) (by simp) (by simp) (by simp) rfl hno, hb2,
        by rw [hb3, hi.handles]; simp only [goto, a1], by rw [hb4, hi.broken]; simp only [goto, a2], hcalls⟩, hlen _⟩
    cases r with
    | quiet => simp only [worked, Option.some.injEq] at hs; exact fin .locked rfl hs.symm
    | ret x =>
      have := hret x rfl
      subst this
      simp only [worked, Option.some.injEq] at hs
      exact fin (.done (.res (.ok none))) rfl hs.symm
    | miss => simp [worked] at hs
    | handle n => simp [worked] at hs
    | panic => simp [worked] at hs
  · -- a mutating call goes on
    rename_i k d m ht
    split at hs
    · cases hs
    rename_i hd hk
    rw [Option.bind_eq_some_iff] at hs
    obtain ⟨⟨w, r⟩, hst, hs⟩ := hs
    obtain ⟨hret, hb⟩ := base_step hcod hpg (show (WEv.cont hd.obj i).Keyed S J s.w from hkey.2 k d m ht) hi.base (e := .cont hd.obj i) trivial trivial (by simp) hroom hst
    rw [calls_none cs (by simp)] at hb
    obtain ⟨a1, a2⟩ := act_same hst (.inr (.inl ⟨_, _, rfl⟩))
    have fin : ∀ st', out (.on k d (.mut m)) st' = some (.res (.ok none)) → s' = ({ s with w } : Proc ι).goto t (.busy (.on k d (.mut m)) st') →
        ∃ L' p' cs', PInv E S J K S0 s' h L' p' cs' ∧ ∀ f, (cs' f).length ≤ (cs f).length + 1 := by
      rintro st' hout rfl
      exact ⟨L, p, cs, ⟨hist_quiet hi.hist ht rfl hout, cur_goto hi.cur ht rfl, hb, thr_go hi.thr ht rfl hst (by simp) (by simp) (by simp) (by simp) rfl (by simp), hi.maps,
        by rw [hi.handles]; simp only [goto, a1], by rw [hi.broken]; simp only [goto, a2], hi.calls⟩, fun f => by omega⟩
    cases r with
    | quiet => simp only [worked, Option.some.injEq] at hs; exact fin .locked rfl hs.symm
    | ret x =>
      have := hret x rfl
      subst this
      simp only [worked, Option.some.injEq] at hs
      exact fin (.done (.res (.ok none))) rfl hs.symm
    | miss => simp [worked] at hs
    | handle n => simp [worked] at hs
    | panic => simp [worked] at hs
  · -- a get takes the lock
    rename_i k d key tok ht
    split at hs
    rotate_left
    · cases hs
    rename_i hd x hk hx
    split at hs
    rotate_left
    · cases hs
    rename_i hph
    injection hs with hs; subst hs
    obtain ⟨hd', ob, g1, g2, g3, g4⟩ := store_live hx
    rw [hk] at g1; injection g1 with g1; subst g1
    refine ⟨L, p, cs, ⟨hist_quiet (st' := .locked) hi.hist ht rfl rfl, cur_goto (st' := .locked) hi.cur ht rfl, hi.base, ?_, hi.maps, hi.handles, hi.broken, hi.calls⟩, fun f => by omega⟩
    have hth : ∀ (u : Nat) (op : POp) (st : Stage), (s.goto t (.busy (.on k d (.get key tok)) .locked)).th u = .busy op st →
        (u = t ∧ op = .on k d (.get key tok) ∧ st = .locked) ∨ s.th u = .busy op st := by
      intro u op st hu
      rw [goto_th] at hu
      split at hu
      · injection hu with h1 h2; exact .inl ⟨by assumption, h1.symm, h2.symm⟩
      · exact .inr hu
    have hback : ∀ (u j : Nat) (e : String) (st : Stage), s.th u = .busy (.drop j e) st → (s.goto t (.busy (.on k d (.get key tok)) .locked)).th u = .busy (.drop j e) st := by
      intro u j e st hu
      rw [goto_th]
      split
      · rename_i hut; subst hut; rw [ht] at hu; injection hu with hu _; cases hu
      · exact hu
    constructor
    · intro j y hj hu
      obtain ⟨u, r, hu'⟩ := hi.thr.unl j y hj hu
      exact ⟨u, r, hback u j _ _ hu'⟩
    · intro o y hy hp hx
      obtain ⟨u, j, r, hu'⟩ := hi.thr.clo o y hy hp hx
      exact ⟨u, j, r, hback u j _ _ hu'⟩
    · intro u op st j e hu hv
      rcases hth u op st hu with ⟨rfl, rfl, rfl⟩ | hu
      · exact hi.thr.dir u _ _ j e ht hv
      · exact hi.thr.dir u _ _ j e hu hv
    · intro u hu y hy
      rcases List.mem_cons.1 hu with rfl | hu
      · have hy : s.w.objs[hd.obj]? = some y := hy
        rw [g3] at hy; injection hy with hy; subst hy
        left; rw [g4]; exact hph
      · exact hi.thr.rdr u hu y hy
    · intro u j e key' tok' hu
      rcases hth u _ _ hu with ⟨rfl, h1, _⟩ | hu
      · injection h1 with h1 _ _; subst h1
        exact ⟨hd, hk, List.mem_cons_self⟩
      · obtain ⟨y, q1, q2⟩ := hi.thr.inr u j e key' tok' hu
        exact ⟨y, q1, List.mem_cons_of_mem _ q2⟩
  · -- a get reads
    rename_i k d key tok ht
    split at hs
    rotate_left
    · cases hs
    rename_i x hx
    injection hs with hs; subst hs
    obtain ⟨hd, ob, g1, g2, g3, g4⟩ := store_live hx
    obtain ⟨hd', q1, q2⟩ := hi.thr.inr t k d key tok ht
    rw [g1] at q1; injection q1 with q1; subst q1
    obtain ⟨hd', q1, hdir⟩ := hi.thr.dir t _ _ k d ht rfl
    rw [g1] at q1; injection q1 with q1; subst q1
    have hph : x.phase = .idle := by
      rcases hi.thr.rdr _ q2 ob g3 with h1 | h1
      · rw [← g4]; exact h1
      · exfalso
        have := (hi.base.reg.closed g3).1 h1
        have hpos := strong_pos g1 (by simp [g2])
        omega
    have hshow := (hi.base.file (S.fileOf d)).handle hi.base.reg hi.base.lv g1 (by rw [hdir]) hx hph
    have hmb : MapBehaves (p.maps (S.fileOf d)) (.get key tok) (x.getAs key tok fun bs => .ok (some bs)) (p.maps (S.fileOf d)) := by
      refine ⟨?_, rfl⟩
      rw [hshow (Option Bytes) key tok, hi.maps]
    have hp' : ({ p with maps := fun f => if f = S.fileOf d then p.maps (S.fileOf d) else p.maps f } : SeqProc) = p := by
      have : (fun f => if f = S.fileOf d then p.maps (S.fileOf d) else p.maps f) = p.maps := by
        funext f; split
        · rename_i hf; rw [hf]
        · rfl
      rw [this]
    have hsb := SeqBehaves.call (dirOk := S.dirOk) (fileOf := S.fileOf) (hdir ▸ handles_live hi g1 g2) hmb
    rw [hp'] at hsb
    obtain ⟨pos', hL⟩ := hist_point (s' := { s.goto t (.busy (.on k d (.get key tok)) (.done (.res (x.getAs key tok fun bs => .ok (some bs))))) with
        readers := s.readers.filter fun u => u.1 != t }) hi.hist ht rfl rfl rfl hsb
    refine ⟨_, p, cs, ⟨hL, cur_goto (st' := .done (.res (x.getAs key tok fun bs => .ok (some bs)))) hi.cur ht rfl, hi.base, ?_, hi.maps, hi.handles, hi.broken, fun f => by rw [mutations_snoc _ _ _ _ _ (by simp)]; exact hi.calls f⟩, fun f => by omega⟩
    have hth : ∀ (u : Nat) (op : POp) (st : Stage),
        (s.goto t (.busy (.on k d (.get key tok)) (.done (.res (x.getAs key tok fun bs => .ok (some bs)))))).th u = .busy op st →
        (u = t ∧ op = .on k d (.get key tok) ∧ st ≠ .locked) ∨ (u ≠ t ∧ s.th u = .busy op st) := by
      intro u op st hu
      rw [goto_th] at hu
      split at hu
      · injection hu with h1 h2; exact .inl ⟨by assumption, h1.symm, by rw [← h2]; simp⟩
      · exact .inr ⟨by assumption, hu⟩
    have hback : ∀ (u j : Nat) (e : String) (st : Stage), s.th u = .busy (.drop j e) st →
        (s.goto t (.busy (.on k d (.get key tok)) (.done (.res (x.getAs key tok fun bs => .ok (some bs)))))).th u = .busy (.drop j e) st := by
      intro u j e st hu
      rw [goto_th]
      split
      · rename_i hut; subst hut; rw [ht] at hu; injection hu with hu _; cases hu
      · exact hu
    constructor
    · intro j y hj hu
      obtain ⟨u, r, hu'⟩ := hi.thr.unl j y hj hu
      exact ⟨u, r, hback u j _ _ hu'⟩
    · intro o y hy hp hx
      obtain ⟨u, j, r, hu'⟩ := hi.thr.clo o y hy hp hx
      exact ⟨u, j, r, hback u j _ _ hu'⟩
    · intro u op st j e hu hv
      rcases hth u op st hu with ⟨rfl, rfl, _⟩ | ⟨_, hu⟩
      · exact hi.thr.dir u _ _ j e ht hv
      · exact hi.thr.dir u _ _ j e hu hv
    · intro u hu y hy
      exact hi.thr.rdr u (List.mem_filter.1 hu).1 y hy
    · intro u j e key' tok' hu
      rcases hth u _ _ hu with ⟨_, _, h1⟩ | ⟨hne, hu⟩
      · exact absurd rfl h1
      · obtain ⟨y, q1, q2⟩ := hi.thr.inr u j e key' tok' hu
        exact ⟨y, q1, List.mem_filter.2 ⟨q2, by simpa using hne⟩⟩
  · -- `Drop::drop`
    rename_i k d ht
    have fin : ∀ (w : World ι) (x : WRes) (r : PRes), World.step S s.w (.drop1 k) = some (w, x) → ((x = .quiet ∧ r = .dropped) ∨ (x = .panic ∧ r = .panicked)) →
        s' = ({ s with w } : Proc ι).goto t (.busy (.drop k d) (.unlisted r)) →
        ∃ L' p' cs', PInv E S J K S0 s' h L' p' cs' ∧ ∀ f, (cs' f).length ≤ (cs f).length + 1 := by
      rintro w x r hst hxr rfl
      obtain ⟨hthr, hd, g1, g2, g3, g4, g5, _, g6⟩ := thr_drop1 (r := r) hi.thr ht hst
      have hb := (base_step hcod hpg trivial hi.base (e := .drop1 k) trivial trivial (by simp) hroom hst).2
      rw [calls_none cs (by simp)] at hb
      have hr : r = if p.broken then .panicked else .dropped := by
        rw [hi.broken]
        cases hp : s.w.poisoned with
        | true => rw [hp] at g6; rcases hxr with ⟨h1, h2⟩ | ⟨h1, h2⟩ <;> simp_all
        | false => rw [hp] at g6; rcases hxr with ⟨h1, h2⟩ | ⟨h1, h2⟩ <;> simp_all
      have hsb := SeqBehaves.drop (dirOk := S.dirOk) (fileOf := S.fileOf) (p := p) (k := k) (d := d) (g3 ▸ handles_live hi g1 g2)
      rw [← hr] at hsb
      obtain ⟨pos', hL⟩ := hist_point (s' := ({ s with w } : Proc ι).goto t (.busy (.drop k d) (.unlisted r))) hi.hist ht rfl rfl rfl hsb
      refine ⟨_, _, cs, ⟨hL, cur_goto (st' := .unlisted r) hi.cur ht rfl, hb, hthr, hi.maps, ?_, ?_, fun f => by rw [mutations_snoc _ _ _ _ _ (by simp)]; exact hi.calls f⟩, fun f => by omega⟩
      · simp only [goto, g4, hi.handles, List.map_set]
        rw [g3]; rfl
      · simp only [goto, g5]; exact hi.broken
    split at hs
    · rename_i w hst
      injection hs with hs
      exact fin w _ _ hst (.inl ⟨rfl, rfl⟩) hs.symm
    · rename_i w hst
      injection hs with hs
      exact fin w _ _ hst (.inr ⟨rfl, rfl⟩) hs.symm
    · cases hs
  · -- the `Arc` is released
    rename_i k d r ht
    split at hs
    rotate_left
    · cases hs
    rename_i hd w x hk hst
    injection hs with hs; subst hs
    obtain ⟨hthr, g1, g2, g3⟩ := thr_drop2 hi.thr hi.base.reg hk ht hst
    have hb := (base_step hcod hpg trivial hi.base (e := .drop2 k) trivial trivial (by simp) hroom hst).2
    rw [calls_none cs (by simp)] at hb
    refine ⟨L, p, cs, ⟨hist_quiet hi.hist ht rfl (by split <;> rfl), cur_goto hi.cur ht rfl, hb, hthr, hi.maps, ?_, ?_, hi.calls⟩, fun f => by omega⟩
    · simp only [goto, g2, hi.handles, List.map_set]
      exact (set_same (by rw [List.getElem?_map, hk]; simp only [Option.map_some, g1]; rfl)).symm
    · simp only [goto, g3]; exact hi.broken
  · -- the background thread is waited for
    rename_i k d o r ht
    split at hs
    · cases hs
    rename_i ob hob
    split at hs
    rotate_left
    · split at hs
      · rename_i hdead
        exact absurd hdead (hi.base.alive hob)
      · cases hs
    rename_i hex
    injection hs with hs; subst hs
    refine ⟨L, p, cs, ⟨hist_quiet (st' := .done r) hi.hist ht rfl rfl, cur_goto (st' := .done r) hi.cur ht rfl, hi.base, ?_, hi.maps, hi.handles, hi.broken, hi.calls⟩, fun f => by omega⟩
    constructor
    · intro j y hj hu
      obtain ⟨u, r', hu'⟩ := hi.thr.unl j y hj hu
      refine ⟨u, r', ?_⟩
      rw [goto_th, if_neg]
      · exact hu'
      · rintro rfl; rw [ht] at hu'; injection hu' with _ h; cases h
    · intro q y hy hp hx
      obtain ⟨u, j, r', hu'⟩ := hi.thr.clo q y hy hp hx
      refine ⟨u, j, r', ?_⟩
      rw [goto_th, if_neg]
      · exact hu'
      · rintro rfl
        rw [ht] at hu'
        injection hu' with _ h; injection h with h _; subst h
        have hy : s.w.objs[o]? = some y := hy
        rw [hob] at hy; injection hy with hy; subst hy
        exact hx hex
    · intro u op st j e hu hv
      rw [goto_th] at hu
      split at hu
      · rename_i hut; subst hut
        injection hu with h1 _; subst h1
        exact hi.thr.dir u _ _ j e ht hv
      · exact hi.thr.dir u _ _ j e hu hv
    · exact hi.thr.rdr
    · intro u j e key' tok' hu
      rw [goto_th] at hu
      split at hu
      · injection hu with hu _; cases hu
      · exact hi.thr.inr u j e key' tok' hu
  · cases hs

omit hcod hpg in
theorem pending_take {h : List (HEv POp PRes)} {v : List (HEv POp PRes)} : ∀ {d : String}, (∃ t, .inv t (.new d) ∈ h) → ∃ t, .inv t (.new d) ∈ h ++ v :=
  fun ⟨t, ht⟩ => ⟨t, List.mem_append_left _ ht⟩

omit hcod hpg in
/-- A thread makes a call. -/
theorem pinv_call {t : Nat} {op : POp} (hi : PInv E S J K S0 s h L p cs) (ht : s.th t = .idle) (hmay : s.may op = true) (us : List (Nat × Nat)) :
    PInv E S J K S0 { s.goto t (.busy op .start) with users := us } (h ++ [.inv t op]) L p cs := by
  have hth : ∀ (u : Nat) (op' : POp) (st : Stage), (s.goto t (.busy op .start)).th u = .busy op' st →
      (u = t ∧ op' = op ∧ st = .start) ∨ (u ≠ t ∧ s.th u = .busy op' st) := by
    intro u op' st hu
    rw [goto_th] at hu
    split at hu
    · injection hu with h1 h2; exact .inl ⟨by assumption, h1.symm, h2.symm⟩
    · exact .inr ⟨by assumption, hu⟩
  have hback : ∀ (u : Nat) (op' : POp) (st : Stage), s.th u = .busy op' st → (s.goto t (.busy op .start)).th u = .busy op' st := by
    intro u op' st hu
    rw [goto_th]
    split
    · rename_i hut; subst hut; rw [ht] at hu; cases hu
    · exact hu
  refine ⟨Multi.hinv_call hi.hist ?_ ?_ ?_, ?_, base_mono hi.base fun d => pending_take, ?_, hi.maps, hi.handles, hi.broken, hi.calls⟩
  · rintro r ⟨op', st, h1, _⟩; rw [ht] at h1; cases h1
  · rintro u op' ⟨st, h1, h2⟩
    rcases hth u op' st h1 with ⟨rfl, rfl, rfl⟩ | ⟨hne, h1⟩
    · exact .inr ⟨rfl, rfl⟩
    · exact .inl ⟨hne, st, h1, h2⟩
  · intro u r
    constructor
    · rintro ⟨op', st, h1, h2⟩
      rcases hth u op' st h1 with ⟨rfl, rfl, rfl⟩ | ⟨_, h1⟩
      · cases h2
      · exact ⟨op', st, h1, h2⟩
    · rintro ⟨op', st, h1, h2⟩
      exact ⟨op', st, hback u op' st h1, h2⟩
  · intro u op' st hu
    rcases hth u op' st hu with ⟨rfl, rfl, rfl⟩ | ⟨hne, hu⟩
    · exact ⟨h.length, pending_new h u op'⟩
    · obtain ⟨pos, hp⟩ := hi.cur u op' st hu
      exact ⟨pos, pending_snoc hp (fun e => hne e.symm)⟩
  · constructor
    · intro k hd hk hu
      obtain ⟨u, r, h1⟩ := hi.thr.unl k hd hk hu
      exact ⟨u, r, hback _ _ _ h1⟩
    · intro o ob ho hp hx
      obtain ⟨u, k, r, h1⟩ := hi.thr.clo o ob ho hp hx
      exact ⟨u, k, r, hback _ _ _ h1⟩
    · intro u op' st k d hu hv
      rcases hth u op' st hu with ⟨rfl, rfl, rfl⟩ | ⟨_, hu⟩
      · have hlv : s.live k d = true := by
          cases op' with
          | new d' => cases hv
          | on h' d' o' =>
            injection hv with hv; injection hv with h1 h2; subst h1 h2
            simp only [may, Bool.and_eq_true] at hmay
            exact hmay.1.2
          | drop h' d' =>
            injection hv with hv; injection hv with h1 h2; subst h1 h2
            simp only [may, Bool.and_eq_true] at hmay
            exact hmay.1
        unfold live at hlv
        split at hlv
        · cases hlv
        · rename_i hd hk
          simp only [Bool.and_eq_true, beq_iff_eq] at hlv
          exact ⟨hd, hk, hlv.2⟩
      · exact hi.thr.dir u op' st k d hu hv
    · exact hi.thr.rdr
    · intro u k d key tok hu
      rcases hth u _ _ hu with ⟨_, _, h1⟩ | ⟨_, hu⟩
      · cases h1
      · exact hi.thr.inr u k d key tok hu

omit hcod hpg in
/-- A thread returns. -/
theorem pinv_ret {t : Nat} {op : POp} {r : PRes} (hi : PInv E S J K S0 s h L p cs) (ht : s.th t = .busy op (.done r)) (us : List (Nat × Nat)) :
    PInv E S J K S0 { s.goto t .idle with users := us } (h ++ [.res t r]) L p cs := by
  have hth : ∀ (u : Nat) (op' : POp) (st : Stage), (s.goto t .idle).th u = .busy op' st → u ≠ t ∧ s.th u = .busy op' st := by
    intro u op' st hu
    rw [goto_th] at hu
    split at hu
    · cases hu
    · exact ⟨by assumption, hu⟩
  have hback : ∀ (u : Nat) (op' : POp) (st : Stage), u ≠ t → s.th u = .busy op' st → (s.goto t .idle).th u = .busy op' st := by
    intro u op' st hne hu
    rw [goto_th, if_neg hne]; exact hu
  refine ⟨Multi.hinv_ret hi.hist (t := t) (r := r) ⟨op, _, ht, rfl⟩ ?_ ?_ ?_, ?_, base_mono hi.base fun d => pending_take, ?_, hi.maps, hi.handles, hi.broken, hi.calls⟩
  · rintro r' ⟨op', st, h1, h2⟩
    rw [ht] at h1
    injection h1 with h1 h3; subst h1 h3
    injection h2 with h2; exact h2.symm
  · rintro u op' ⟨st, h1, h2⟩
    obtain ⟨hne, h1⟩ := hth u op' st h1
    exact ⟨hne, st, h1, h2⟩
  · intro u r'
    constructor
    · rintro ⟨op', st, h1, h2⟩
      obtain ⟨hne, h1⟩ := hth u op' st h1
      exact ⟨hne, op', st, h1, h2⟩
    · rintro ⟨hne, op', st, h1, h2⟩
      exact ⟨op', st, hback u op' st hne h1, h2⟩
  · intro u op' st hu
    obtain ⟨hne, hu⟩ := hth u op' st hu
    obtain ⟨pos, hp⟩ := hi.cur u op' st hu
    exact ⟨pos, pending_snoc hp (fun e => hne e.symm)⟩
  · constructor
    · intro k hd hk hu
      obtain ⟨u, r', h1⟩ := hi.thr.unl k hd hk hu
      exact ⟨u, r', hback _ _ _ (by rintro rfl; rw [ht] at h1; injection h1 with _ h1; cases h1) h1⟩
    · intro o ob ho hp hx
      obtain ⟨u, k, r', h1⟩ := hi.thr.clo o ob ho hp hx
      exact ⟨u, k, r', hback _ _ _ (by rintro rfl; rw [ht] at h1; injection h1 with _ h1; cases h1) h1⟩
    · intro u op' st k d hu hv
      exact hi.thr.dir u op' st k d (hth u op' st hu).2 hv
    · exact hi.thr.rdr
    · intro u k d key tok hu
      exact hi.thr.inr u k d key tok (hth u _ _ hu).2

/-- One step of the process keeps the invariant. -/
theorem pinv_step {s' : Proc ι} {e : PrEv ι} {v : Option (HEv POp PRes)} (hkey : PrKeyed S J s e) (hi : PInv E S J K S0 s h L p cs)
    (hroom : ∀ f, E.Room (K + (cs f).length)) (ha : Apart (h ++ v.toList)) (ho : OneSpelling S.fileOf (h ++ v.toList))
    (hfit : ∀ (t k : Nat) (d : String) (m : Mutation), .inv t (.on k d (.mut m)) ∈ h ++ v.toList → (evOf m : Ev ι).Ok E)
    (hio : ∀ o ord, e = .io o ord → ∀ l, (ord l).Perm l) (hs : s.step S e = some (s', v)) :
    ∃ L' p' cs', PInv E S J K S0 s' (h ++ v.toList) L' p' cs' ∧ ∀ f, (cs' f).length ≤ (cs f).length + 1 := by
  cases e with
  | call t op =>
    simp only [step] at hs
    split at hs
    · rename_i hc
      injection hs with hs; injection hs with h1 h2; subst h1 h2
      exact ⟨L, p, cs, pinv_call hi hc.1 hc.2 _, fun f => by omega⟩
    · cases hs
  | go t i =>
    simp only [step] at hs
    rw [Option.map_eq_some_iff] at hs
    obtain ⟨x, hx, hs⟩ := hs
    injection hs with h1 h2; subst h1 h2
    simp only [Option.toList, List.append_nil] at ha ho hfit ⊢
    exact pinv_go hcod hpg hkey hi hroom ha ho hfit hx
  | ret t =>
    simp only [step] at hs
    split at hs
    · rename_i op r ht
      injection hs with hs; injection hs with h1 h2; subst h1 h2
      exact ⟨L, p, cs, pinv_ret hi ht _, fun f => by omega⟩
    · cases hs
  | io o ord =>
    simp only [step] at hs
    rw [Option.map_eq_some_iff] at hs
    obtain ⟨⟨w, r⟩, hst, hs⟩ := hs
    injection hs with h1 h2; subst h1 h2
    simp only [Option.toList, List.append_nil]
    have hb := (base_step hcod hpg trivial hi.base (e := .io o ord) (hio o ord rfl) trivial (by simp) hroom hst).2
    rw [calls_none cs (by simp)] at hb
    obtain ⟨a1, a2⟩ := act_same hst (.inr (.inr ⟨_, _, rfl⟩))
    refine ⟨L, p, cs, ⟨hi.hist, hi.cur, hb, ?_, hi.maps, by rw [hi.handles]; simp only [a1], by rw [hi.broken]; simp only [a2], hi.calls⟩, fun f => by omega⟩
    exact thr_step (s' := ({ s with w } : Proc ι)) hi.thr hst (by simp) (by simp) (fun _ _ _ _ h => h) (fun _ _ st h => ⟨st, h⟩) (fun _ _ _ _ _ h => h) rfl (by simp)

omit h L p cs s in
theorem pinv_run [Nonempty ι] (es : List (PrEv ι)) : ∀ {s s' : Proc ι} {h h' : List (HEv POp PRes)} {L : List (Nat × POp × PRes)} {p : SeqProc} {cs : Nat → List Mutation},
    PInv E S J K S0 s h L p cs → (∀ f, E.Room (K + (cs f).length + es.length)) → Apart (h ++ h') → OneSpelling S.fileOf (h ++ h') →
    (∀ (t k : Nat) (d : String) (m : Mutation), .inv t (.on k d (.mut m)) ∈ h ++ h' → (evOf m : Ev ι).Ok E) →
    (∀ o ord, .io o ord ∈ es → ∀ l, (ord l).Perm l) → PrKeyedRun S J s es → s.run S es = some (s', h') →
    ∃ L' p' cs', PInv E S J K S0 s' (h ++ h') L' p' cs' := by
  induction es with
  | nil =>
    intro s s' h h' L p cs hi _ _ _ _ _ _ hs
    simp only [run, Option.some.injEq, Prod.mk.injEq] at hs
    obtain ⟨rfl, rfl⟩ := hs
    exact ⟨L, p, cs, by simpa using hi⟩
  | cons e es ih =>
    intro s s' h h' L p cs hi hroom ha ho hfit hio hkey hs
    simp only [run] at hs
    split at hs
    · cases hs
    rename_i s1 v hst
    split at hs
    · cases hs
    rename_i s2 h2 hrun
    simp only [Option.some.injEq, Prod.mk.injEq] at hs
    obtain ⟨rfl, rfl⟩ := hs
    rw [← List.append_assoc] at ha ho hfit ⊢
    obtain ⟨L1, p1, cs1, h1, hl⟩ := pinv_step hcod hpg hkey.1 hi (fun f => (hroom f).mono (by omega)) ha.left
      (fun t u d e h1 h2 hf => ho t u d e (List.mem_append_left _ h1) (List.mem_append_left _ h2) hf)
      (fun t k d m hm => hfit t k d m (List.mem_append_left _ hm)) (fun o ord he => hio o ord (by rw [he]; exact List.mem_cons_self)) hst
    exact ih h1 (fun f => (hroom f).mono (by have := hl f; simp only [List.length_cons]; omega)) ha ho hfit
      (fun o ord hm => hio o ord (List.mem_cons_of_mem _ hm)) (hkey.2 _ _ hst) hrun

end

end Proc

theorem plain_pinv_good {S : Sys Unit} {page K : Nat} (hp : Plain S page) {names : Nat → Option Nat} {inodes : List Bytes} (hg : GoodNames names inodes)
    {S0 : Nat → Store} (h0 : ∀ f, GoodFile (plainEnv page hp.h8 True) crcCodec K (((start names inodes : World Unit).fileAt f).getD []) (S0 f))
    {es : List (PrEv Unit)} {s : Proc Unit} {h : List (HEv POp PRes)} (hrun : Proc.run S { w := start names inodes } es = some (s, h))
    (hfit : CallsFit page h) (hio : ∀ o ord, .io o ord ∈ es → ∀ l, (ord l).Perm l) (hapart : Apart h) (hone : OneSpelling S.fileOf h)
    (hroom : page * (K + es.length) + 8 < 2 ^ 64) :
    ∃ L p cs, Proc.PInv (plainEnv page hp.h8 True) S (fun _ _ => True) K S0 s h L p cs := by
  have hstart : Proc.PInv (plainEnv page hp.h8 True) S (fun _ _ => True) K S0 { w := start names inodes } [] [] { maps := S0 } (fun _ => []) := by
    refine ⟨⟨.nil _ _, ?_, ?_, by simp⟩, ?_, ⟨Reg.start S hg.exist hg.inj, fun f => .inl ⟨by simp [start], fun _ _ => h0 f⟩, by simp [start], by simp [start]⟩,
      ⟨by simp [start], by simp [start], ?_, by simp, ?_⟩, rfl, rfl, rfl, fun _ => rfl⟩
    · rintro t op ⟨st, h1, _⟩; cases h1
    · rintro t r ⟨op, st, h1, _⟩; cases h1
    · intro t op st h1; cases h1
    · intro t op st k d h1; cases h1
    · intro t k d key tok h1; cases h1
  obtain ⟨L, p, cs, hi⟩ := Proc.pinv_run hp.codecs hp.page es hstart (fun f => plain_room (by simpa using hroom)) (by simpa using hapart) (by simpa using hone)
    (fun t k d m hm => Ev.Fits.ok hp.h32 (hfit t k d m (by simpa using hm))) hio (Proc.prKeyedRun_unit hp.key es _) hrun
  exact ⟨L, p, cs, by simpa using hi⟩

theorem plain_pinv {S : Sys Unit} {page K : Nat} (hp : Plain S page) {names : Nat → Option Nat} {inodes : List Bytes} (hg : GoodNames names inodes)
    {S0 : Nat → Store} (h0 : ∀ f, FileMap page K (((start names inodes : World Unit).fileAt f).getD []) (S0 f))
    {es : List (PrEv Unit)} {s : Proc Unit} {h : List (HEv POp PRes)} (hrun : Proc.run S { w := start names inodes } es = some (s, h))
    (hfit : CallsFit page h) (hio : ∀ o ord, .io o ord ∈ es → ∀ l, (ord l).Perm l) (hapart : Apart h) (hone : OneSpelling S.fileOf h)
    (hroom : page * (K + es.length) + 8 < 2 ^ 64) :
    ∃ L p cs, Proc.PInv (plainEnv page hp.h8 True) S (fun _ _ => True) K S0 s h L p cs :=
  plain_pinv_good hp hg (fun f => (h0 f).good hp.h32) hrun hfit hio hapart hone hroom

/-- **C87.**  A process starts on any number of directories, holding the maps `S0`.  Any number of threads open directories with `new`, make any calls
through the handles they get, share them, drop them, and open directories again, in any schedule, with the background threads running at any pace.  If no
`new` of a directory overlaps a drop of one of its handles, unless another of them is kept (else: C30), and each directory is always named by the same string (else: C29), then what the threads
observe is linearizable as a whole: there is one order of all the calls, agreeing with real time, in which the results are those of a sequential process
(`SeqBehaves`) with one map for each directory, which lives on unchanged while the directory is closed and opened again, however often. -/
theorem C87_linearizable {S : Sys Unit} {page K : Nat} (hp : Plain S page) {names : Nat → Option Nat} {inodes : List Bytes} (hg : GoodNames names inodes)
    {S0 : Nat → Store} (h0 : ∀ f, FileMap page K (((start names inodes : World Unit).fileAt f).getD []) (S0 f))
    {es : List (PrEv Unit)} {s : Proc Unit} {h : List (HEv POp PRes)} (hrun : Proc.run S { w := start names inodes } es = some (s, h))
    (hfit : CallsFit page h) (hio : ∀ o ord, .io o ord ∈ es → ∀ l, (ord l).Perm l) (hapart : Apart h) (hone : OneSpelling S.fileOf h)
    (hroom : page * (K + es.length) + 8 < 2 ^ 64) : Linearizable (SeqBehaves S.dirOk S.fileOf) { maps := S0 } h := by
  obtain ⟨L, p, cs, hi⟩ := plain_pinv hp hg h0 hrun hfit hio hapart hone hroom
  exact ⟨L, p, hi.hist.lin⟩

/-- No handle of directory `f` is in use, and no drop of one is under way. -/
def NobodyOn (fileOf : String → Nat) (h : List (HEv POp PRes)) (last : SeqProc) (f : Nat) : Prop :=
  (∀ d, (d, true) ∈ last.handles → fileOf d ≠ f) ∧ ∀ (u j k : Nat) (d : String), Pending h u j (.drop k d) → fileOf d ≠ f

/-- Once nobody is on a directory, all stores on it have finished closing. -/
theorem Proc.closed_of_nobody {ι : Type} {E : Env ι} {S : Sys ι} {J : Nat → ι → Prop} {K : Nat} {S0 : Nat → Store} {s : Proc ι} {h : List (HEv POp PRes)} {L : List (Nat × POp × PRes)}
    {p : SeqProc} {cs : Nat → List Mutation} (hi : Proc.PInv E S J K S0 s h L p cs) {f : Nat} (hr : NobodyOn S.fileOf h p f) (o : Nat) (ob : Obj ι)
    (hob : s.w.objs[o]? = some ob) (hf : S.fileOf ob.dir = f) : ob.inst.closedOk := by
  obtain ⟨hr1, hr2⟩ := hr
  have hno : ∀ (u k : Nat) (x : Stage), s.th u = .busy (.drop k ob.dir) x → False := by
    intro u k x hu
    obtain ⟨q, hq⟩ := hi.cur u _ _ hu
    exact hr2 u q k ob.dir hq hf
  have hcl : ob.inst.phase = .closed := by
    rw [hi.base.reg.closed hob]
    refine Decidable.byContradiction fun hne => ?_
    have hpos : 0 < s.w.strong o := Nat.pos_of_ne_zero hne
    unfold World.strong at hpos
    rw [List.countP_pos_iff] at hpos
    obtain ⟨hd, hm, hc⟩ := hpos
    simp only [Bool.and_eq_true, beq_iff_eq, bne_iff_ne, ne_eq] at hc
    obtain ⟨hc1, hc2⟩ := hc
    obtain ⟨k, hk⟩ := List.getElem?_of_mem hm
    obtain ⟨ob2, g1, g2⟩ := hi.base.reg.hobj hk
    rw [hc1, hob] at g1; injection g1 with g1; subst g1
    cases hst : hd.st with
    | live =>
      have := List.mem_of_getElem? (Proc.handles_live hi hk hst)
      exact hr1 hd.dir this (by rw [← g2]; exact hf)
    | unlisted =>
      obtain ⟨u, r, hu⟩ := hi.thr.unl k hd hk hst
      rw [← g2] at hu
      exact hno u k _ hu
    | gone => exact hc2 hst
  refine ⟨hcl, Decidable.byContradiction fun hx => ?_⟩
  obtain ⟨u, k, r, hu⟩ := hi.thr.clo o ob hob hcl hx
  exact hno u k _ hu

/-- **C87**, and what the files hold.  With the order of C87: every handle in use shows the map of its directory whenever no mutating call holds its store;
the map of a directory is what the mutating calls made on it lead to, in that order; if the process dies (between two background writes), whoever opens a directory
next finds the map after some first part of them; and all of them, if the drops of its handles have returned. -/
theorem C87_saved {S : Sys Unit} {page K : Nat} (hp : Plain S page) {names : Nat → Option Nat} {inodes : List Bytes} (hg : GoodNames names inodes)
    {S0 : Nat → Store} (h0 : ∀ f, FileMap page K (((start names inodes : World Unit).fileAt f).getD []) (S0 f))
    {es : List (PrEv Unit)} {s : Proc Unit} {h : List (HEv POp PRes)} (hrun : Proc.run S { w := start names inodes } es = some (s, h))
    (hfit : CallsFit page h) (hio : ∀ o ord, .io o ord ∈ es → ∀ l, (ord l).Perm l) (hapart : Apart h) (hone : OneSpelling S.fileOf h)
    (hroom : page * (K + es.length) + 8 < 2 ^ 64) :
    ∃ L last, Linearization (SeqBehaves S.dirOk S.fileOf) { maps := S0 } h L last ∧
      (∀ (k : Nat) (d : String) (x : Inst Unit), last.handles[k]? = some (d, true) → s.w.store? k = some x → x.phase = .idle → x.Shows (last.maps (S.fileOf d))) ∧
      ∀ f, last.maps f = (S0 f).run (mutationsOn S.fileOf f L) ∧
        ∃ n x, Inst.openAt plain () page ((s.w.fileAt f).getD []) = some x ∧ x.Shows ((S0 f).run ((mutationsOn S.fileOf f L).take n)) ∧
          (NobodyOn S.fileOf h last f → x.Shows (last.maps f)) := by
  obtain ⟨L, p, cs, hi⟩ := plain_pinv hp hg h0 hrun hfit hio hapart hone hroom
  refine ⟨L, p, hi.hist.lin, ?_, fun f => ?_⟩
  · intro k d x hk hx hph
    obtain ⟨hd, ob, g1, g2, g3, g4⟩ := store_live hx
    have := Proc.handles_live hi g1 g2
    rw [hk] at this; injection this with this; injection this with this _; subst this
    rw [hi.maps]
    exact (hi.base.file _).handle hi.base.reg hi.base.lv g1 rfl hx hph
  · have hmaps : p.maps f = (S0 f).run (mutationsOn S.fileOf f L) := by rw [hi.maps, ← hi.calls f]
    refine ⟨hmaps, ?_⟩
    have hfull : NobodyOn S.fileOf h p f → GoodFile (plainEnv page hp.h8 True) crcCodec (K + (cs f).length) ((s.w.fileAt f).getD []) ((S0 f).run (cs f)) := by
      rintro ⟨hr1, hr2⟩
      exact (hi.base.file f).at_rest (i := ()) (Proc.closed_of_nobody hi ⟨hr1, hr2⟩) ⟨fun _ => trivial, fun _ _ _ _ _ => rfl⟩
    obtain ⟨n, _, hgf⟩ := (hi.base.file f).at_any_time (i := ()) (fun _ => trivial) (fun _ => ⟨fun _ => trivial, fun _ _ _ _ _ => rfl⟩)
    obtain ⟨x, hx, hd, _⟩ := Inst.dinv_open (i := ()) hgf
    rw [hi.calls f] at hd
    refine ⟨n, x, hx, shows_of_view hx (by simpa [Store.run] using hd.kvView), fun hr => ?_⟩
    obtain ⟨y, hy, hd', _⟩ := Inst.dinv_open (i := ()) (hfull hr)
    have : some x = some y := hx.symm.trans hy
    injection this with this; subst this
    rw [hi.maps]
    exact shows_of_view hx (by simpa [Store.run] using hd'.kvView)

/-! ### The hypotheses can be met -/

/-- The call at position `i` is still under way. -/
def pendB (h : List (HEv POp PRes)) (i : Nat) : Bool :=
  match h[i]? with
  | some (.inv t _) => (h.drop (i + 1)).all fun e => e.thread != t
  | _ => false

/-- The first event of thread `t`, and its position. -/
def nextOf (t : Nat) : List (HEv POp PRes) → Option (Nat × HEv POp PRes)
  | [] => none
  | e :: h => if e.thread = t then some (0, e) else (nextOf t h).map fun x => (x.1 + 1, x.2)

theorem nextOf_some {t : Nat} : ∀ {h : List (HEv POp PRes)} {j : Nat} {e : HEv POp PRes}, nextOf t h = some (j, e) →
    h[j]? = some e ∧ ∀ k e', k < j → h[k]? = some e' → e'.thread ≠ t := by
  intro h
  induction h with
  | nil => intro j e hn; cases hn
  | cons a h ih =>
    intro j e hn
    simp only [nextOf] at hn
    split at hn
    · injection hn with hn; injection hn with h1 h2; subst h1; subst h2
      exact ⟨rfl, fun k e' hk => absurd hk (Nat.not_lt_zero _)⟩
    · rename_i hne
      rw [Option.map_eq_some_iff] at hn
      obtain ⟨⟨j', e'⟩, h1, h2⟩ := hn
      injection h2 with h2 h3; subst h2; subst h3
      obtain ⟨g1, g2⟩ := ih h1
      refine ⟨g1, fun k e'' hk he => ?_⟩
      cases k with
      | zero => injection he with he; subst he; exact hne
      | succ k => exact g2 k e'' (by omega) he

/-- A sufficient check for `HandleKept`. -/
def keptB (h : List (HEv POp PRes)) (d : String) : Bool :=
  (List.range h.length).any fun i => match h[i]? with
    | some (.inv t (.new e)) => d == e && match nextOf t (h.drop (i + 1)) with
      | some (_, .res _ (.handle k)) => h.all fun x => match x with
        | .inv _ (.drop k' _) => k' != k
        | _ => true
      | _ => false
    | _ => false

theorem keptB_of {h : List (HEv POp PRes)} {d : String} (hb : keptB h d = true) : HandleKept h d := by
  obtain ⟨i, _, hi⟩ := List.any_eq_true.1 hb
  split at hi
  · rename_i t e he
    simp only [Bool.and_eq_true, beq_iff_eq] at hi
    obtain ⟨rfl, hi⟩ := hi
    split at hi
    · rename_i j u k hn
      obtain ⟨g1, g2⟩ := nextOf_some hn
      have hu : u = t := by
        have : ∀ (h : List (HEv POp PRes)) (j : Nat) (e : HEv POp PRes), nextOf t h = some (j, e) → e.thread = t := by
          intro h
          induction h with
          | nil => intro j e hn; cases hn
          | cons a h ih =>
            intro j e hn
            simp only [nextOf] at hn
            split at hn
            · injection hn with hn; injection hn with h1 h2; subst h2; assumption
            · rw [Option.map_eq_some_iff] at hn
              obtain ⟨⟨j', e'⟩, h1, h2⟩ := hn
              injection h2 with h2 h3; subst h3
              exact ih j' e' h1
        exact this _ _ _ hn
      subst hu
      rw [List.getElem?_drop] at g1
      refine ⟨i, i + 1 + j, k, ⟨u, he, g1, by omega, fun q e hq1 hq2 hq => g2 (q - (i + 1)) e (by omega) (by rw [List.getElem?_drop, show i + 1 + (q - (i + 1)) = q by omega]; exact hq)⟩, fun v e hm => ?_⟩
      have := List.all_eq_true.1 hi _ hm
      simp at this
    · cases hi
  · cases hi

/-- A decision procedure for `Apart`. -/
def apartB (h : List (HEv POp PRes)) : Bool :=
  (List.range (h.length + 1)).all fun n => (List.range h.length).all fun i => (List.range h.length).all fun j =>
    match (h.take n)[i]?, (h.take n)[j]? with
    | some (.inv _ (.new d)), some (.inv _ (.drop _ e)) => d != e || !(pendB (h.take n) i && pendB (h.take n) j) || keptB (h.take n) d
    | _, _ => true

theorem pendB_of {h : List (HEv POp PRes)} {t i : Nat} {op : POp} (hp : Pending h t i op) : pendB h i = true := by
  unfold pendB
  rw [hp.1]
  rw [List.all_eq_true]
  intro e he
  obtain ⟨k, hk⟩ := List.getElem?_of_mem he
  rw [List.getElem?_drop] at hk
  have := hp.2 _ e (by omega) hk
  simpa using this

theorem apart_of {h : List (HEv POp PRes)} (hb : apartB h = true) : Apart h := by
  intro n t u i j k d h1 h2
  have key : ∀ n ≤ h.length, Pending (h.take n) t i (.new d) → Pending (h.take n) u j (.drop k d) → HandleKept (h.take n) d := by
    intro n hn h1 h2
    have hi := lt_of_getElem? h1.1
    have hj := lt_of_getElem? h2.1
    rw [List.length_take] at hi hj
    have := List.all_eq_true.1 (List.all_eq_true.1 (List.all_eq_true.1 hb n (List.mem_range.2 (by omega))) i (List.mem_range.2 (by omega))) j (List.mem_range.2 (by omega))
    rw [h1.1, h2.1] at this
    simp only [pendB_of h1, pendB_of h2, bne_self_eq_false, Bool.and_self, Bool.not_true, Bool.or_self, Bool.false_or] at this
    exact keptB_of this
  rcases Nat.le_total n h.length with hn | hn
  · exact key n hn h1 h2
  · rw [List.take_of_length_le hn] at h1 h2 ⊢
    have := key h.length (Nat.le_refl _) (by rw [List.take_of_length_le (Nat.le_refl _)]; exact h1) (by rw [List.take_of_length_le (Nat.le_refl _)]; exact h2)
    rw [List.take_of_length_le (Nat.le_refl _)] at this
    exact this

/-- Threads 0 and 1 open "a" at the same time; thread 0 puts "k" while thread 1 opens "b" and reads "k" of "a"; both drop their handles of "a", at the same time, with
the put still to be written; thread 0 opens "a" again and reads "k" while thread 1 puts "k" into "b". -/
def reopenDemo : List (PrEv Unit) :=
  [.call 0 (.new "a"), .call 1 (.new "a"), .go 0 (), .go 1 (), .go 1 (), .go 0 (), .ret 0, .ret 1,
   .call 0 (.on 1 "a" (.mut (.put "k" ⟨0, [0, 0, 0, 7]⟩))), .go 0 (), .call 1 (.new "b"), .go 1 (), .go 0 (), .go 1 (), .ret 1, .go 0 (),
   .call 1 (.on 0 "a" (.get "k" 0)), .go 1 (), .go 1 (), .ret 1, .ret 0,
   .call 0 (.drop 1 "a"), .call 1 (.drop 0 "a"), .go 0 (), .go 1 (), .go 0 (), .go 1 (), .ret 0] ++
  List.replicate 5 (.io 0 id) ++ [.go 1 (), .ret 1] ++
  [.call 0 (.new "a"), .go 0 (), .call 1 (.on 2 "b" (.mut (.put "k" ⟨0, [0, 0, 0, 8]⟩))), .go 0 (), .ret 0, .go 1 (), .call 0 (.on 3 "a" (.get "k" 0)), .go 0 (), .go 0 (),
   .ret 0, .go 1 (), .go 1 (), .ret 1]

/-- Two threads may call through one handle at the same time (`&self`); nobody may while it is being dropped. -/
example : ((Proc.run twoDirs { w := start (fun _ => none) [] }
      [.call 0 (.new "a"), .go 0 (), .go 0 (), .ret 0, .call 0 (.on 0 "a" (.get "k" 0)), .call 1 (.on 0 "a" (.get "k" 0)), .go 0 (), .go 1 ()]).map (·.2)) =
      some [.inv 0 (.new "a"), .res 0 (.handle 0), .inv 0 (.on 0 "a" (.get "k" 0)), .inv 1 (.on 0 "a" (.get "k" 0))] ∧
    (Proc.run twoDirs { w := start (fun _ => none) [] }
      [.call 0 (.new "a"), .go 0 (), .go 0 (), .ret 0, .call 0 (.drop 0 "a"), .call 1 (.on 0 "a" (.get "k" 0))]).isNone = true := by decide +kernel

/-- What an observer sees of it. -/
def reopenHist : List (HEv POp PRes) :=
  [.inv 0 (.new "a"), .inv 1 (.new "a"), .res 0 (.handle 1), .res 1 (.handle 0), .inv 0 (.on 1 "a" (.mut (.put "k" ⟨0, [0, 0, 0, 7]⟩))), .inv 1 (.new "b"),
   .res 1 (.handle 2), .inv 1 (.on 0 "a" (.get "k" 0)), .res 1 (.res (.ok (some [0, 0, 0, 7]))), .res 0 (.res (.ok none)),
   .inv 0 (.drop 1 "a"), .inv 1 (.drop 0 "a"), .res 0 .dropped, .res 1 .dropped, .inv 0 (.new "a"), .inv 1 (.on 2 "b" (.mut (.put "k" ⟨0, [0, 0, 0, 8]⟩))),
   .res 0 (.handle 3), .inv 0 (.on 3 "a" (.get "k" 0)), .res 0 (.res (.ok (some [0, 0, 0, 7]))), .res 1 (.res (.ok none))]

/-- The hypotheses of C87 are met by this history. -/
example : Plain twoDirs 64 ∧ GoodNames (fun _ => none) [] ∧
    (∀ f, FileMap 64 0 (((start (fun _ => none) [] : World Unit).fileAt f).getD []) Store.empty) ∧
    (∃ s, Proc.run twoDirs { w := start (fun _ => none) [] } reopenDemo = some (s, reopenHist)) ∧ CallsFit 64 reopenHist ∧
    (∀ o ord, .io o ord ∈ reopenDemo → ∀ l, (ord l).Perm l) ∧ Apart reopenHist ∧ OneSpelling twoDirs.fileOf reopenHist ∧
    64 * (0 + reopenDemo.length) + 8 < 2 ^ 64 := by
  refine ⟨⟨by decide, by decide, rfl, rfl, rfl⟩, .none, fun _ => fileMap_empty, ?_, ?_, ?_, apart_of (by decide +kernel), ?_, by decide⟩
  · have hc : (match Proc.run twoDirs { w := start (fun _ => none) [] } reopenDemo with
        | some (_, h) => decide (h = reopenHist)
        | none => false) = true := by decide +kernel
    split at hc
    · rename_i s h hr
      simp only [decide_eq_true_eq] at hc; subst hc
      exact ⟨s, hr⟩
    · cases hc
  · intro t k d m hm
    have hput : ∀ v, (kvToBytes ⟨"k", 0, [0, 0, 0, v]⟩).length ≤ 59 → (evOf (.put "k" ⟨0, [0, 0, 0, v]⟩) : Ev Unit).Fits 64 := by
      intro v hl
      simp only [evOf, Ev.Fits, recordSize]; omega
    simp [reopenHist] at hm
    rcases hm with ⟨_, _, _, rfl⟩ | ⟨_, _, _, rfl⟩
    · exact hput 7 (by decide)
    · exact hput 8 (by decide)
  · intro o ord hm
    simp [reopenDemo] at hm
    rw [hm.2]
    exact fun l => List.Perm.refl l
  · intro t u d e h1 h2 hf
    simp [reopenHist] at h1 h2
    rcases h1 with ⟨_, rfl⟩ | ⟨_, rfl⟩ | ⟨_, rfl⟩ | ⟨_, rfl⟩ <;> rcases h2 with ⟨_, rfl⟩ | ⟨_, rfl⟩ | ⟨_, rfl⟩ | ⟨_, rfl⟩ <;> first | rfl | (revert hf; decide)

end Mmkv
