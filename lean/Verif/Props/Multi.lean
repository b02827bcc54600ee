import Verif.Model.Multi
import Verif.Props.Linear
/-!
# C74: a whole process is linearizable
-/

namespace Mmkv
open Spec Inst
variable {ι : Type}

/-- The sequential process: for each directory that has been opened the sequential object of C70, and whether a failed `MMKV::new` has
broken the registry. -/
structure Process where
  dirs : String → Option Object := fun _ => none
  broken : Bool := false

/-- Directory `d` gets the object `o`. -/
def Process.set (p : Process) (d : String) (o : Object) : Process := { p with dirs := fun e => if e = d then some o else p.dirs e }

/-- What one call, made alone, may do to the process and return.  `disk d` is what directory `d` holds at the start, `none` if it cannot be
opened. -/
inductive ProcessBehaves (disk : String → Option Store) : Process → MOp → MRes → Process → Prop
  /-- after a failed `new` every `new` panics (cf. C31) -/
  | broken {p d} (h : p.broken = true) : ProcessBehaves disk p (.new d) .panicked p
  /-- `new` of an open directory -/
  | again {p d o} (h : p.broken = false) (hd : p.dirs d = some o) : ProcessBehaves disk p (.new d) .opened p
  /-- the first `new` of a directory: it holds what was on the disk -/
  | first {p d S} (h : p.broken = false) (hd : p.dirs d = none) (hS : disk d = some S) :
      ProcessBehaves disk p (.new d) .opened (p.set d { map := S })
  /-- `new` of a directory that cannot be opened -/
  | bad {p d} (h : p.broken = false) (hd : p.dirs d = none) (hS : disk d = none) :
      ProcessBehaves disk p (.new d) .panicked { p with broken := true }
  /-- a call on an open directory: that directory's object, and no other -/
  | call {p d o op r o'} (hd : p.dirs d = some o) (hb : Behaves o op r o') : ProcessBehaves disk p (.on d op) (.res r) (p.set d o')

/-- `disk` is what the directories hold: what the first `new` of each would show. -/
def MSys.Holds (S : MSys ι) (disk : String → Option Store) : Prop :=
  ∀ d, (S.dirOk d = true → ∀ s, openAt S.codecs (S.key d) S.page (S.file d) = some s → ∃ T, disk d = some T ∧ s.Shows T) ∧
    (S.dirOk d = false ∨ openAt S.codecs (S.key d) S.page (S.file d) = none → disk d = none)

namespace Multi
open Threads (Rel Mid goto_self goto_other begin_step work_step io_keeps rel_io mid_io get_behaves)

/-- Invariant of one store. -/
structure SInv (codecs : ι → Codec) (s : Threads ι) (σ : Object) : Prop where
  live : s.inst.Live
  kept : Inst.Kept codecs s.inst
  free : s.owner = none → s.inst.phase = .idle ∧ Rel σ s.inst
  held : ∀ t, s.owner = some t → s.readers = [] ∧ ∃ m, s.th t = .inside (.mut m) ∧ Mid m σ s.inst
  ins : ∀ t m, s.th t = .inside (.mut m) → s.owner = some t
  rd : ∀ t k tok, s.th t = .inside (.get k tok) → t ∈ s.readers

theorem sinv_start {codecs : ι → Codec} {i : ι} {page : Nat} {file : Bytes} {s : Inst ι} {T : Store} (h : openAt codecs i page file = some s)
    (hT : s.Shows T) : SInv codecs { inst := s } { map := T } := by
  have hv : view s.kv = T := (shows_open h).1 hT
  subst hv
  exact ⟨live_open h, Inst.kept_open h, fun _ => ⟨(Threads.rel_open h).2, (Threads.rel_open h).1⟩, (by intro t h; cases h), (by intro t m h; cases h),
    (by intro t k tok h; cases h)⟩

/-- What the thread is doing, as far as its caller is concerned. -/
inductive Face where
  | idle
  | pending (op : Op)
  | done (r : Res)

/-- The face of a thread state. -/
def face : TSt → Face
  | .idle => .idle
  | .waiting op => .pending op
  | .inside op => .pending op
  | .done r => .done r

/-- What a step of a store is, for its callers. -/
inductive Kind (codecs : ι → Codec) (s s' : Threads ι) (σ : Object) : Option (HEv Op Res) → Prop
  | call {t op} (h : face (s.th t) = .idle) (h' : face (s'.th t) = .pending op) (ho : ∀ u, u ≠ t → s'.th u = s.th u)
      (hi : SInv codecs s' σ) : Kind codecs s s' σ (some (.inv t op))
  | quiet (h : ∀ u, face (s'.th u) = face (s.th u)) (hi : SInv codecs s' σ) : Kind codecs s s' σ none
  | point {t op r σ'} (h : face (s.th t) = .pending op) (h' : face (s'.th t) = .done r) (ho : ∀ u, u ≠ t → s'.th u = s.th u)
      (hb : Behaves σ op r σ') (hi : SInv codecs s' σ') : Kind codecs s s' σ none
  | ret {t r} (h : face (s.th t) = .done r) (h' : face (s'.th t) = .idle) (ho : ∀ u, u ≠ t → s'.th u = s.th u) (hi : SInv codecs s' σ) :
      Kind codecs s s' σ (some (.res t r))

theorem kind_step {codecs : ι → Codec} {s s' : Threads ι} {σ : Object} {e : TEv ι} {v : Option (HEv Op Res)} (hi : SInv codecs s σ)
    (hs : Threads.step codecs s e = some (s', v)) : Kind codecs s s' σ v ∧ (∀ t op, v = some (.inv t op) → caller e = some t) := by
  cases e with
  | call t op =>
    simp only [Threads.step] at hs
    split at hs
    · rename_i hc
      injection hs with hs; injection hs with h1 h2; subst h1 h2
      refine ⟨.call (by rw [hc.1]; rfl) (by rw [goto_self]; rfl) (fun u hu => goto_other _ _ hu) ⟨hi.live, hi.kept, hi.free, ?_, ?_, ?_⟩, ?_⟩
      · intro u hu
        obtain ⟨g1, m, g2, g3⟩ := hi.held u hu
        have hut : u ≠ t := by rintro rfl; rw [hc.1] at g2; cases g2
        exact ⟨g1, m, by rw [goto_other _ _ hut]; exact g2, g3⟩
      · intro u m hu
        by_cases hut : u = t
        · subst hut; rw [goto_self] at hu; cases hu
        · rw [goto_other _ _ hut] at hu; exact hi.ins u m hu
      · intro u k tok hu
        by_cases hut : u = t
        · subst hut; rw [goto_self] at hu; cases hu
        · rw [goto_other _ _ hut] at hu; exact hi.rd u k tok hu
      · intro u op' h
        injection h with h; injection h with h1 _; subst h1; rfl
    · cases hs
  | lock t =>
    simp only [Threads.step] at hs
    split at hs
    · rename_i k tok hth
      split at hs
      · rename_i how
        injection hs with hs; injection hs with h1 h2; subst h1 h2
        refine ⟨.quiet ?_ ⟨hi.live, hi.kept, hi.free, ?_, ?_, ?_⟩, by simp⟩
        · intro u
          by_cases hut : u = t
          · subst hut; simp [Threads.goto, hth, face]
          · simp [Threads.goto, hut]
        · intro u hu
          have hu : s.owner = some u := hu
          rw [how] at hu; cases hu
        · intro u m hu
          by_cases hut : u = t
          · subst hut; simp [Threads.goto] at hu
          · exact hi.ins u m (by simpa [Threads.goto, hut] using hu)
        · intro u k' tok' hu
          by_cases hut : u = t
          · subst hut; simp
          · exact List.mem_cons_of_mem _ (hi.rd u k' tok' (by simpa [Threads.goto, hut] using hu))
      · cases hs
    · rename_i m hth
      split at hs
      · rename_i how
        obtain ⟨how, hrd⟩ := how
        obtain ⟨hph, hrel⟩ := hi.free how
        split at hs
        · cases hs
        · rename_i x hst
          injection hs with hs; injection hs with h1 h2; subst h1 h2
          rcases begin_step hi.kept hph hrel hst with ⟨_, hmid⟩ | ⟨_, _, hx, _⟩
          · refine ⟨.quiet ?_ ⟨live_step hi.live hst, Inst.kept_step hi.kept hst, ?_, ?_, ?_, ?_⟩, by simp⟩
            · intro u
              by_cases hut : u = t
              · subst hut; simp [Threads.goto, hth, face]
              · simp [Threads.goto, hut]
            · intro hu; cases hu
            · intro u hu
              injection hu with hu; subst hu
              exact ⟨hrd, m, by simp [Threads.goto], hmid⟩
            · intro u m' hu
              by_cases hut : u = t
              · subst hut; rfl
              · have := hi.ins u m' (by simpa [Threads.goto, hut] using hu)
                rw [how] at this; cases this
            · intro u k' tok' hu
              by_cases hut : u = t
              · subst hut; simp [Threads.goto] at hu
              · exact hi.rd u k' tok' (by simpa [Threads.goto, hut] using hu)
          · cases hx
        · rename_i x r hst
          injection hs with hs; injection hs with h1 h2; subst h1 h2
          rcases begin_step hi.kept hph hrel hst with ⟨hx, _⟩ | ⟨y, σ', hx, hb, hrel', hph'⟩
          · cases hx
          · injection hx with hx; subst hx
            refine ⟨.point (t := t) (by rw [hth]; rfl) (by rw [goto_self]; rfl) (fun u hu => goto_other _ _ hu) hb
              ⟨live_step hi.live hst, Inst.kept_step hi.kept hst, fun _ => ⟨hph', hrel'⟩, ?_, ?_, ?_⟩, by simp⟩
            · intro u hu
              have hu : s.owner = some u := hu
              rw [how] at hu; cases hu
            · intro u m' hu
              by_cases hut : u = t
              · subst hut; simp [Threads.goto] at hu
              · exact hi.ins u m' (by simpa [Threads.goto, hut] using hu)
            · intro u k' tok' hu
              by_cases hut : u = t
              · subst hut; simp [Threads.goto] at hu
              · exact hi.rd u k' tok' (by simpa [Threads.goto, hut] using hu)
      · cases hs
    · cases hs
  | work t i =>
    simp only [Threads.step] at hs
    split at hs
    · rename_i k tok hth
      injection hs with hs; injection hs with h1 h2; subst h1 h2
      have hmem := hi.rd t k tok hth
      have how : s.owner = none := by
        cases ho : s.owner with
        | none => rfl
        | some u => rw [(hi.held u ho).1] at hmem; simp at hmem
      obtain ⟨hph, hrel⟩ := hi.free how
      refine ⟨.point (t := t) (by rw [hth]; rfl) (by rw [goto_self]; rfl) (fun u hu => goto_other _ _ hu) (get_behaves hi.live hrel k tok)
        ⟨hi.live, hi.kept, fun _ => ⟨hph, hrel⟩, ?_, ?_, ?_⟩, by simp⟩
      · intro u hu
        have hu : s.owner = some u := hu
        rw [how] at hu; cases hu
      · intro u m' hu
        by_cases hut : u = t
        · subst hut; simp [Threads.goto] at hu
        · exact hi.ins u m' (by simpa [Threads.goto, hut] using hu)
      · intro u k' tok' hu
        by_cases hut : u = t
        · subst hut; simp [Threads.goto] at hu
        · exact (List.mem_erase_of_ne hut).2 (hi.rd u k' tok' (by simpa [Threads.goto, hut] using hu))
    · rename_i m hth
      have how := hi.ins t m hth
      obtain ⟨hrd, m', hth', hmid⟩ := hi.held t how
      rw [hth] at hth'
      injection hth' with hth'; injection hth' with hth'; subst hth'
      split at hs
      · cases hs
      · rename_i x hst
        injection hs with hs; injection hs with h1 h2; subst h1 h2
        rcases work_step hi.kept hmid hst with ⟨_, hmid'⟩ | ⟨_, _, hx, _⟩
        · refine ⟨.quiet (fun _ => rfl) ⟨live_step hi.live hst, Inst.kept_step hi.kept hst, ?_, ?_, hi.ins, hi.rd⟩, by simp⟩
          · intro hu
            have hu : s.owner = none := hu
            rw [how] at hu; cases hu
          · intro u hu
            have hu : s.owner = some u := hu
            rw [how] at hu; injection hu with hu; subst hu
            exact ⟨hrd, m, hth, hmid'⟩
        · cases hx
      · rename_i x r hst
        injection hs with hs; injection hs with h1 h2; subst h1 h2
        rcases work_step hi.kept hmid hst with ⟨hx, _⟩ | ⟨y, σ', hx, hb, hrel', hph'⟩
        · cases hx
        · injection hx with hx; subst hx
          refine ⟨.point (t := t) (by rw [hth]; rfl) (by rw [goto_self]; rfl) (fun u hu => goto_other _ _ hu) hb
            ⟨live_step hi.live hst, Inst.kept_step hi.kept hst, fun _ => ⟨hph', hrel'⟩, ?_, ?_, ?_⟩, by simp⟩
          · intro u hu; cases hu
          · intro u m' hu
            by_cases hut : u = t
            · subst hut; simp [Threads.goto] at hu
            · have := hi.ins u m' (by simpa [Threads.goto, hut] using hu)
              rw [how] at this; injection this with this
              exact absurd this.symm hut
          · intro u k' tok' hu
            by_cases hut : u = t
            · subst hut; simp [Threads.goto] at hu
            · exact hi.rd u k' tok' (by simpa [Threads.goto, hut] using hu)
    · cases hs
  | ret t =>
    simp only [Threads.step] at hs
    split at hs
    · rename_i r hth
      injection hs with hs; injection hs with h1 h2; subst h1 h2
      refine ⟨.ret (by rw [hth]; rfl) (by rw [goto_self]; rfl) (fun u hu => goto_other _ _ hu) ⟨hi.live, hi.kept, hi.free, ?_, ?_, ?_⟩, by simp⟩
      · intro u hu
        obtain ⟨g1, m, g2, g3⟩ := hi.held u hu
        have hut : u ≠ t := by rintro rfl; rw [hth] at g2; cases g2
        exact ⟨g1, m, by rw [goto_other _ _ hut]; exact g2, g3⟩
      · intro u m hu
        by_cases hut : u = t
        · subst hut; rw [goto_self] at hu; cases hu
        · rw [goto_other _ _ hut] at hu; exact hi.ins u m hu
      · intro u k tok hu
        by_cases hut : u = t
        · subst hut; rw [goto_self] at hu; cases hu
        · rw [goto_other _ _ hut] at hu; exact hi.rd u k tok hu
    · cases hs
  | io o =>
    simp only [Threads.step] at hs
    split at hs
    · cases hs
    · rename_i x r hst
      injection hs with hs; injection hs with h1 h2; subst h1 h2
      obtain ⟨rfl, hph, _⟩ := io_keeps hst
      refine ⟨.quiet (fun _ => rfl) ⟨live_step hi.live hst, Inst.kept_step hi.kept hst, ?_, ?_, hi.ins, hi.rd⟩, by simp⟩
      · intro hu
        obtain ⟨g1, g2⟩ := hi.free hu
        exact ⟨hph.trans g1, rel_io hst g2⟩
      · intro u hu
        obtain ⟨g1, m, g2, g3⟩ := hi.held u hu
        exact ⟨g1, m, g2, mid_io hi.kept hst g3⟩

/-- Thread `t` is in the call `op` of the process, not yet in effect. -/
def Waits (m : Multi ι) (t : Nat) : MOp → Prop
  | .new d => m.th t = .look d ∨ m.th t = .create d
  | .on d op => ∃ (k : Nat) (s : Threads ι), m.stores[k]? = some (d, s) ∧ face (s.th t) = .pending op

/-- Thread `t` is about to return `r`. -/
def Ready (m : Multi ι) (t : Nat) (r : MRes) : Prop :=
  m.th t = .done r ∨ ∃ (k : Nat) (d : String) (s : Threads ι) (r' : Res), m.stores[k]? = some (d, s) ∧ face (s.th t) = .done r' ∧ r = .res r'

/-- Invariant of a run, the history: `W t op` says that thread `t` is in the call `op`, not yet in effect, `R t r` that it is about to
return `r`. -/
structure HInv {Op Res σ : Type} (Step : σ → Op → Res → σ → Prop) (init : σ) (W : Nat → Op → Prop) (R : Nat → Res → Prop) (h : List (HEv Op Res))
    (L : List (Nat × Op × Res)) (p : σ) : Prop where
  lin : Linearization Step init h L p
  wait : ∀ t op, W t op → ∃ pos, Pending h t pos op ∧ pos ∉ L.map (·.1)
  done : ∀ t r, R t r → ∃ pos op, Pending h t pos op ∧ (pos, op, r) ∈ L
  known : ∀ x ∈ L, (∃ j, Returned h x.1 j x.2.1 x.2.2) ∨ ∃ t, R t x.2.2 ∧ Pending h t x.1 x.2.1

section
variable {Op Res σ : Type} {Step : σ → Op → Res → σ → Prop} {init : σ} {W W' : Nat → Op → Prop} {R R' : Nat → Res → Prop}
  {h : List (HEv Op Res)} {L : List (Nat × Op × Res)} {p p' : σ}

theorem hinv_quiet (hi : HInv Step init W R h L p) (hw : ∀ t op, W' t op → W t op) (hr : ∀ t r, R' t r ↔ R t r) : HInv Step init W' R' h L p where
  lin := hi.lin
  wait t op hh := hi.wait t op (hw t op hh)
  done t r hh := hi.done t r ((hr t r).1 hh)
  known x hx := by
    rcases hi.known x hx with hj | ⟨t, h1, h2⟩
    · exact .inl hj
    · exact .inr ⟨t, (hr _ _).2 h1, h2⟩

theorem hinv_call (hi : HInv Step init W R h L p) {t : Nat} {op : Op} (hR : ∀ r, ¬ R t r) (hw : ∀ u op', W' u op' → (u ≠ t ∧ W u op') ∨ (u = t ∧ op' = op))
    (hr : ∀ u r, R' u r ↔ R u r) : HInv Step init W' R' (h ++ [.inv t op]) L p where
  lin := hi.lin.inv t op
  wait u op' hh := by
    rcases hw u op' hh with ⟨hut, hh⟩ | ⟨rfl, rfl⟩
    · obtain ⟨pos, h1, h2⟩ := hi.wait u op' hh
      exact ⟨pos, pending_snoc h1 (fun h => hut h.symm), h2⟩
    · refine ⟨h.length, pending_new h u op', ?_⟩
      intro hm
      obtain ⟨x, hx, hx1⟩ := List.mem_map.1 hm
      have := hi.lin.lt_length hx
      omega
  done u r hh := by
    have hh := (hr u r).1 hh
    have hut : u ≠ t := by rintro rfl; exact hR r hh
    obtain ⟨pos, op', h1, h2⟩ := hi.done u r hh
    exact ⟨pos, op', pending_snoc h1 (fun h => hut h.symm), h2⟩
  known x hx := by
    rcases hi.known x hx with ⟨j, hj⟩ | ⟨u, h1, h2⟩
    · exact .inl ⟨j, returned_mono hj⟩
    · have hut : u ≠ t := by rintro rfl; exact hR _ h1
      exact .inr ⟨u, (hr _ _).2 h1, pending_snoc h2 (fun h => hut h.symm)⟩

theorem hinv_point_at (hi : HInv Step init W R h L p) {t : Nat} {op : Op} {r : Res} (ht : W t op) (hs : Step p op r p') (hRt : ∀ r', ¬ R t r')
    (hw : ∀ u op', W' u op' → u ≠ t ∧ W u op') (hr : ∀ u r', R' u r' ↔ (R u r' ∨ (u = t ∧ r' = r))) :
    ∃ pos, HInv Step init W' R' h (L ++ [(pos, op, r)]) p' := by
  obtain ⟨pos, hp, hn⟩ := hi.wait t op ht
  refine ⟨pos, hi.lin.point hp hn hs, ?_, ?_, ?_⟩
  · intro u op' hh
    obtain ⟨hut, hh⟩ := hw u op' hh
    obtain ⟨q, hq, hn'⟩ := hi.wait u op' hh
    refine ⟨q, hq, ?_⟩
    simp only [List.map_append, List.map_cons, List.map_nil, List.mem_append, List.mem_singleton, not_or]
    refine ⟨hn', ?_⟩
    rintro rfl
    have := hp.1.symm.trans hq.1
    injection this with this; injection this with this _
    exact hut this.symm
  · intro u r' hh
    rcases (hr u r').1 hh with hh | ⟨rfl, rfl⟩
    · obtain ⟨q, op', h1, h2⟩ := hi.done u r' hh
      exact ⟨q, op', h1, List.mem_append_left _ h2⟩
    · exact ⟨pos, op, hp, by simp⟩
  · intro x hx
    rcases List.mem_append.1 hx with hx | hx
    · rcases hi.known x hx with hj | ⟨u, h1, h2⟩
      · exact .inl hj
      · exact .inr ⟨u, (hr _ _).2 (.inl h1), h2⟩
    · simp only [List.mem_singleton] at hx
      subst hx
      exact .inr ⟨t, (hr _ _).2 (.inr ⟨rfl, rfl⟩), hp⟩

theorem hinv_point (hi : HInv Step init W R h L p) {t : Nat} {op : Op} {r : Res} (ht : W t op) (hs : Step p op r p') (hRt : ∀ r', ¬ R t r')
    (hw : ∀ u op', W' u op' → u ≠ t ∧ W u op') (hr : ∀ u r', R' u r' ↔ (R u r' ∨ (u = t ∧ r' = r))) :
    ∃ L', HInv Step init W' R' h L' p' := by
  obtain ⟨pos, h⟩ := hinv_point_at hi ht hs hRt hw hr
  exact ⟨_, h⟩

theorem hinv_ret (hi : HInv Step init W R h L p) {t : Nat} {r : Res} (ht : R t r) (hone : ∀ r', R t r' → r' = r) (hw : ∀ u op', W' u op' → u ≠ t ∧ W u op')
    (hr : ∀ u r', R' u r' ↔ (u ≠ t ∧ R u r')) : HInv Step init W' R' (h ++ [.res t r]) L p := by
  obtain ⟨pos, op, hp, hm⟩ := hi.done t r ht
  refine ⟨hi.lin.res hp hm, ?_, ?_, ?_⟩
  · intro u op' hh
    obtain ⟨hut, hh⟩ := hw u op' hh
    obtain ⟨q, h1, h2⟩ := hi.wait u op' hh
    exact ⟨q, pending_snoc h1 (fun h => hut h.symm), h2⟩
  · intro u r' hh
    obtain ⟨hut, hh⟩ := (hr u r').1 hh
    obtain ⟨q, op', h1, h2⟩ := hi.done u r' hh
    exact ⟨q, op', pending_snoc h1 (fun h => hut h.symm), h2⟩
  · intro x hx
    rcases hi.known x hx with ⟨j, hj⟩ | ⟨u, h1, h2⟩
    · exact .inl ⟨j, returned_mono hj⟩
    · by_cases hut : u = t
      · subst hut
        left
        have := hone _ h1
        refine ⟨h.length, u, ?_, by simp [this], lt_of_getElem? h2.1, ?_⟩
        · rw [List.getElem?_append_left (lt_of_getElem? h2.1)]; exact h2.1
        · intro k e hk hk' he
          rw [List.getElem?_append_left hk'] at he
          exact h2.2 k e hk he
      · exact .inr ⟨u, (hr _ _).2 ⟨hut, h1⟩, pending_snoc h2 (fun h => hut h.symm)⟩

end

/-- Invariant of a run. -/
structure GInv (S : MSys ι) (disk : String → Option Store) (m : Multi ι) (h : List (HEv MOp MRes)) (L : List (Nat × MOp × MRes)) (p : Process) :
    Prop where
  hist : HInv (ProcessBehaves disk) {} m.Waits m.Ready h L p
  broken : p.broken = m.poisoned
  nodup : ∀ (k k' : Nat) (d : String) (s s' : Threads ι), m.stores[k]? = some (d, s) → m.stores[k']? = some (d, s') → k = k'
  ent : ∀ (k : Nat) (d : String) (s : Threads ι), m.stores[k]? = some (d, s) → ∃ σ, p.dirs d = some σ ∧ SInv S.codecs s σ
  rest : ∀ (d : String), (∀ (k : Nat) (s : Threads ι), m.stores[k]? ≠ some (d, s)) → p.dirs d = none
  one : ∀ (t k : Nat) (d : String) (s : Threads ι), m.stores[k]? = some (d, s) → face (s.th t) ≠ .idle → m.th t = .idle ∧
    ∀ (k' : Nat) (d' : String) (s' : Threads ι), m.stores[k']? = some (d', s') → face (s'.th t) ≠ .idle → k' = k

theorem ginv_start (S : MSys ι) (disk : String → Option Store) : GInv S disk {} [] [] {} where
  hist := ⟨.nil _ _, by intro t op h; cases op <;> simp [Waits] at h, by intro t r h; simp [Ready] at h, by simp⟩
  broken := rfl
  nodup := by intro k k' d s s' h; simp at h
  ent := by intro k d s h; simp at h
  rest := fun _ _ => rfl
  one := by intro t k d s h; simp at h

theorem has_iff {m : Multi ι} {d : String} : m.has d = true ↔ ∃ (k : Nat) (s : Threads ι), m.stores[k]? = some (d, s) := by
  simp only [has, List.any_eq_true, beq_iff_eq]
  constructor
  · rintro ⟨⟨d', s⟩, hm, rfl⟩
    obtain ⟨k, hk⟩ := List.getElem?_of_mem hm
    exact ⟨k, s, hk⟩
  · rintro ⟨k, s, hk⟩
    exact ⟨(d, s), List.mem_of_getElem? hk, rfl⟩

theorem face_idle {x : TSt} : face x = .idle ↔ x = .idle := by cases x <;> simp [face]

theorem free_iff {m : Multi ι} {t : Nat} : m.free t = true ↔ m.th t = .idle ∧
    ∀ (k : Nat) (d : String) (s : Threads ι), m.stores[k]? = some (d, s) → face (s.th t) = .idle := by
  simp only [free, Bool.and_eq_true, beq_iff_eq, List.all_eq_true, face_idle]
  constructor
  · rintro ⟨h1, h2⟩
    exact ⟨h1, fun k d s hk => h2 (d, s) (List.mem_of_getElem? hk)⟩
  · rintro ⟨h1, h2⟩
    refine ⟨h1, ?_⟩
    rintro ⟨d, s⟩ hm
    obtain ⟨k, hk⟩ := List.getElem?_of_mem hm
    exact h2 k d s hk

/-- A thread in `new` that goes to `x`: nothing changes for the others. -/
theorem waits_goto {m : Multi ι} {t u : Nat} {x : NSt} (h : u ≠ t) (op : MOp) : (m.goto t x).Waits u op ↔ m.Waits u op := by
  cases op <;> simp [Waits, Multi.goto, h]

theorem ready_goto {m : Multi ι} {t u : Nat} {x : NSt} (h : u ≠ t) (r : MRes) : (m.goto t x).Ready u r ↔ m.Ready u r := by
  simp [Ready, Multi.goto, h]

/-- ... and it is in no call on a store. -/
theorem new_only {S : MSys ι} {disk : String → Option Store} {m : Multi ι} {h : List (HEv MOp MRes)} {L : List (Nat × MOp × MRes)} {p : Process}
    (hi : GInv S disk m h L p) {t : Nat} (ht : m.th t ≠ .idle) : ∀ (k : Nat) (d : String) (s : Threads ι), m.stores[k]? = some (d, s) → face (s.th t) = .idle := by
  intro k d s hk
  by_cases hf : face (s.th t) = .idle
  · exact hf
  · exact absurd (hi.one t k d s hk hf).1 ht

theorem waits_goto_self {m : Multi ι} {t : Nat} {x : NSt} (h : ∀ (k : Nat) (d : String) (s : Threads ι), m.stores[k]? = some (d, s) → face (s.th t) = .idle)
    {op : MOp} (hw : (m.goto t x).Waits t op) : ∃ d, op = .new d ∧ (x = .look d ∨ x = .create d) := by
  cases op with
  | new d => exact ⟨d, rfl, by simpa [Waits, Multi.goto] using hw⟩
  | on d op =>
    obtain ⟨k, s, hk, hf⟩ := hw
    rw [h k d s hk] at hf
    cases hf

theorem ready_goto_self {m : Multi ι} {t : Nat} {x : NSt} (h : ∀ (k : Nat) (d : String) (s : Threads ι), m.stores[k]? = some (d, s) → face (s.th t) = .idle)
    {r : MRes} : (m.goto t x).Ready t r ↔ x = .done r := by
  constructor
  · rintro (hr | ⟨k, d, s, r', hk, hf, _⟩)
    · simpa [Multi.goto] using hr
    · rw [h k d s hk] at hf
      cases hf
  · rintro rfl
    exact .inl (by simp [Multi.goto])

theorem getElem?_snoc_new {α : Type} {l : List α} {x y : α} {k : Nat} : (l ++ [x])[k]? = some y ↔ l[k]? = some y ∨ (k = l.length ∧ y = x) := by
  constructor
  · intro h
    rcases getElem?_snoc h with ⟨_, h⟩ | h
    · exact .inl h
    · exact .inr h
  · rintro (h | ⟨rfl, rfl⟩)
    · rw [List.getElem?_append_left (lt_of_getElem? h)]; exact h
    · simp

theorem waits_append {m : Multi ι} {d : String} {s : Threads ι} (hs : ∀ u, face (s.th u) = .idle) (t : Nat) (op : MOp) :
    ({ m with stores := m.stores ++ [(d, s)] } : Multi ι).Waits t op ↔ m.Waits t op := by
  cases op with
  | new d => rfl
  | on d' op =>
    simp only [Waits, getElem?_snoc_new]
    constructor
    · rintro ⟨k, s', hk | ⟨_, hk⟩, hf⟩
      · exact ⟨k, s', hk, hf⟩
      · injection hk with _ hk
        subst hk
        rw [hs t] at hf
        cases hf
    · rintro ⟨k, s', hk, hf⟩
      exact ⟨k, s', .inl hk, hf⟩

theorem ready_append {m : Multi ι} {d : String} {s : Threads ι} (hs : ∀ u, face (s.th u) = .idle) (t : Nat) (r : MRes) :
    ({ m with stores := m.stores ++ [(d, s)] } : Multi ι).Ready t r ↔ m.Ready t r := by
  simp only [Ready, getElem?_snoc_new]
  constructor
  · rintro (hr | ⟨k, d', s', r', hk | ⟨_, hk⟩, hf, hr⟩)
    · exact .inl hr
    · exact .inr ⟨k, d', s', r', hk, hf, hr⟩
    · injection hk with _ hk
      subst hk
      rw [hs t] at hf
      cases hf
  · rintro (hr | ⟨k, d', s', r', hk, hf, hr⟩)
    · exact .inl hr
    · exact .inr ⟨k, d', s', r', .inl hk, hf, hr⟩

/-- A thread in `new` moves: what is left of the invariant but the history. -/
theorem one_goto {m : Multi ι} {t : Nat} {x : NSt} (hf : ∀ (k : Nat) (d : String) (s : Threads ι), m.stores[k]? = some (d, s) → face (s.th t) = .idle)
    (ho : ∀ (t k : Nat) (d : String) (s : Threads ι), m.stores[k]? = some (d, s) → face (s.th t) ≠ .idle → m.th t = .idle ∧
      ∀ (k' : Nat) (d' : String) (s' : Threads ι), m.stores[k']? = some (d', s') → face (s'.th t) ≠ .idle → k' = k) :
    ∀ (u k : Nat) (d : String) (s : Threads ι), m.stores[k]? = some (d, s) → face (s.th u) ≠ .idle → (m.goto t x).th u = .idle ∧
      ∀ (k' : Nat) (d' : String) (s' : Threads ι), m.stores[k']? = some (d', s') → face (s'.th u) ≠ .idle → k' = k := by
  intro u k d s hk hu
  have hut : u ≠ t := by rintro rfl; exact hu (hf k d s hk)
  refine ⟨?_, (ho u k d s hk hu).2⟩
  simp [Multi.goto, hut, (ho u k d s hk hu).1]

theorem waits_set {m : Multi ι} {k : Nat} {d : String} {s s' : Threads ι} (hk : m.stores[k]? = some (d, s)) {u : Nat} (hu : face (s'.th u) = face (s.th u)) (op : MOp) :
    ({ m with stores := m.stores.set k (d, s') } : Multi ι).Waits u op ↔ m.Waits u op := by
  cases op with
  | new d => rfl
  | on d' op =>
    have hlt := lt_of_getElem? hk
    simp only [Waits, List.getElem?_set]
    constructor
    · rintro ⟨k', s'', hk', hf⟩
      split at hk'
      · rename_i he
        subst he
        injection hk' with hk'; injection hk' with e1 e2
        subst e1 e2
        exact ⟨k, s, hk, by rw [← hu]; exact hf⟩
      · exact ⟨k', s'', hk', hf⟩
    · rintro ⟨k', s'', hk', hf⟩
      by_cases he : k = k'
      · subst he
        rw [hk] at hk'
        injection hk' with hk'; injection hk' with e1 e2
        subst e1 e2
        exact ⟨k, s', by simp [hlt], by rw [hu]; exact hf⟩
      · exact ⟨k', s'', by simp [he, hk'], hf⟩

theorem ready_set {m : Multi ι} {k : Nat} {d : String} {s s' : Threads ι} (hk : m.stores[k]? = some (d, s)) {u : Nat} (hu : face (s'.th u) = face (s.th u)) (r : MRes) :
    ({ m with stores := m.stores.set k (d, s') } : Multi ι).Ready u r ↔ m.Ready u r := by
  have hlt := lt_of_getElem? hk
  simp only [Ready, List.getElem?_set]
  constructor
  · rintro (hr | ⟨k', d', s'', r', hk', hf, hr⟩)
    · exact .inl hr
    · right
      split at hk'
      · rename_i he
        subst he
        injection hk' with hk'; injection hk' with e1 e2
        subst e1 e2
        exact ⟨k, d, s, r', hk, by rw [← hu]; exact hf, hr⟩
      · exact ⟨k', d', s'', r', hk', hf, hr⟩
  · rintro (hr | ⟨k', d', s'', r', hk', hf, hr⟩)
    · exact .inl hr
    · right
      by_cases he : k = k'
      · subst he
        rw [hk] at hk'
        injection hk' with hk'; injection hk' with e1 e2
        subst e1 e2
        exact ⟨k, d, s', r', by simp [hlt], by rw [hu]; exact hf, hr⟩
      · exact ⟨k', d', s'', r', by simp [he, hk'], hf, hr⟩

/-- A thread that is nowhere else than in store `k`. -/
def OnlyAt (m : Multi ι) (k t : Nat) : Prop :=
  m.th t = .idle ∧ ∀ (k' : Nat) (d' : String) (s' : Threads ι), k' ≠ k → m.stores[k']? = some (d', s') → face (s'.th t) = .idle

theorem waits_set_self {m : Multi ι} {k t : Nat} {d : String} {s s' : Threads ι} (hk : m.stores[k]? = some (d, s)) (ho : m.OnlyAt k t) {op : MOp}
    (hw : ({ m with stores := m.stores.set k (d, s') } : Multi ι).Waits t op) : ∃ op', op = .on d op' ∧ face (s'.th t) = .pending op' := by
  cases op with
  | new d =>
    have hw : m.th t = .look d ∨ m.th t = .create d := hw
    rw [ho.1] at hw
    rcases hw with hw | hw <;> cases hw
  | on d' op =>
    simp only [Waits, List.getElem?_set] at hw
    obtain ⟨k', s'', hk', hf⟩ := hw
    split at hk'
    · rename_i he
      subst he
      rw [if_pos (lt_of_getElem? hk)] at hk'
      injection hk' with hk'; injection hk' with e1 e2
      subst e1 e2
      exact ⟨op, rfl, hf⟩
    · rename_i he
      rw [ho.2 k' d' s'' (Ne.symm he) hk'] at hf
      cases hf

theorem ready_set_self {m : Multi ι} {k t : Nat} {d : String} {s s' : Threads ι} (hk : m.stores[k]? = some (d, s)) (ho : m.OnlyAt k t) {r : MRes} :
    ({ m with stores := m.stores.set k (d, s') } : Multi ι).Ready t r ↔ ∃ r', r = .res r' ∧ face (s'.th t) = .done r' := by
  have hlt := lt_of_getElem? hk
  simp only [Ready, List.getElem?_set]
  constructor
  · rintro (hr | ⟨k', d', s'', r', hk', hf, hr⟩)
    · rw [ho.1] at hr
      cases hr
    · split at hk'
      · rename_i he
        subst he
        injection hk' with hk'; injection hk' with e1 e2
        subst e1 e2
        exact ⟨r', hr, hf⟩
      · rename_i he
        rw [ho.2 k' d' s'' (Ne.symm he) hk'] at hf
        cases hf
  · rintro ⟨r', rfl, hf⟩
    exact .inr ⟨k, d, s', r', by simp [hlt], hf, rfl⟩

/-- Moving one store within its object. -/
theorem rest_set {S : MSys ι} {disk : String → Option Store} {m : Multi ι} {h : List (HEv MOp MRes)} {L : List (Nat × MOp × MRes)} {p : Process}
    (hi : GInv S disk m h L p) {k : Nat} {d : String} {s s' : Threads ι} (hk : m.stores[k]? = some (d, s)) {σ : Object} (hs : SInv S.codecs s' σ)
    (hone : ∀ t, face (s'.th t) ≠ .idle → m.OnlyAt k t) {h' : List (HEv MOp MRes)} {L' : List (Nat × MOp × MRes)} {p' : Process}
    (hp : p'.broken = p.broken) (hd : p'.dirs d = some σ) (hd' : ∀ e, e ≠ d → p'.dirs e = p.dirs e)
    (hh : HInv (ProcessBehaves disk) {} ({ m with stores := m.stores.set k (d, s') } : Multi ι).Waits
      ({ m with stores := m.stores.set k (d, s') } : Multi ι).Ready h' L' p') :
    GInv S disk { m with stores := m.stores.set k (d, s') } h' L' p' := by
  have hlt := lt_of_getElem? hk
  have hget : ∀ (j : Nat) (e : String) (x : Threads ι), (m.stores.set k (d, s'))[j]? = some (e, x) →
      (j = k ∧ e = d ∧ x = s') ∨ (j ≠ k ∧ m.stores[j]? = some (e, x)) := by
    intro j e x hj
    rw [List.getElem?_set] at hj
    split at hj
    · rename_i he
      subst he
      injection hj with hj; injection hj with e1 e2
      exact .inl ⟨rfl, e1.symm, e2.symm⟩
    · rename_i he
      exact .inr ⟨Ne.symm he, hj⟩
  refine ⟨hh, hp.trans hi.broken, ?_, ?_, ?_, ?_⟩
  · intro j j' e x y hj hj'
    rcases hget j e x hj with ⟨rfl, rfl, rfl⟩ | ⟨h1, h2⟩ <;> rcases hget j' _ y hj' with ⟨rfl, e1, rfl⟩ | ⟨h3, h4⟩
    · rfl
    · exact hi.nodup _ _ _ _ _ hk h4
    · subst e1
      exact hi.nodup _ _ _ _ _ h2 hk
    · exact hi.nodup _ _ _ _ _ h2 h4
  · intro j e x hj
    rcases hget j e x hj with ⟨rfl, rfl, rfl⟩ | ⟨h1, h2⟩
    · exact ⟨σ, hd, hs⟩
    · have : e ≠ d := by rintro rfl; exact h1 (hi.nodup _ _ _ _ _ h2 hk)
      rw [hd' e this]
      exact hi.ent j e x h2
  · intro e he
    have hed : e ≠ d := by
      rintro rfl
      exact he k s' (by simp [hlt])
    rw [hd' e hed]
    refine hi.rest e ?_
    intro j x hj
    by_cases hjk : k = j
    · subst hjk
      rw [hk] at hj
      injection hj with hj; injection hj with e1 _
      exact hed e1.symm
    · exact he j x (by simp [hjk, hj])
  · intro t j e x hj hx
    rcases hget j e x hj with ⟨rfl, rfl, rfl⟩ | ⟨h1, h2⟩
    · refine ⟨(hone t hx).1, ?_⟩
      intro j' e' y hj' hy
      rcases hget j' e' y hj' with ⟨rfl, _⟩ | ⟨h3, h4⟩
      · rfl
      · exact absurd ((hone t hx).2 j' e' y h3 h4) hy
    · obtain ⟨g1, g2⟩ := hi.one t j e x h2 hx
      refine ⟨g1, ?_⟩
      intro j' e' y hj' hy
      rcases hget j' e' y hj' with ⟨rfl, rfl, rfl⟩ | ⟨h3, h4⟩
      · exact absurd ((hone t hy).2 j e x h1 h2) hx
      · exact g2 j' e' y h4 hy

/-- A thread active in a store is nowhere else. -/
theorem onlyAt_active {S : MSys ι} {disk : String → Option Store} {m : Multi ι} {h : List (HEv MOp MRes)} {L : List (Nat × MOp × MRes)} {p : Process}
    (hi : GInv S disk m h L p) {k : Nat} {d : String} {s : Threads ι} (hk : m.stores[k]? = some (d, s)) {t : Nat} (ht : face (s.th t) ≠ .idle) : m.OnlyAt k t := by
  obtain ⟨g1, g2⟩ := hi.one t k d s hk ht
  refine ⟨g1, fun k' d' s' hne hk' => ?_⟩
  by_cases hf : face (s'.th t) = .idle
  · exact hf
  · exact absurd (g2 k' d' s' hk' hf) hne

theorem ginv_step {S : MSys ι} {disk : String → Option Store} (hdisk : S.Holds disk) {m m' : Multi ι} {h : List (HEv MOp MRes)} {L : List (Nat × MOp × MRes)}
    {p : Process} {e : MEv ι} {v : Option (HEv MOp MRes)} (hi : GInv S disk m h L p) (hs : step S m e = some (m', v)) :
    ∃ L' p', GInv S disk m' (h ++ v.toList) L' p' := by
  cases e with
  | call t dir =>
    simp only [step] at hs
    split at hs
    · rename_i hf
      injection hs with hs; injection hs with h1 h2; subst h1 h2
      obtain ⟨f1, f2⟩ := free_iff.1 hf
      refine ⟨L, p, hinv_call hi.hist ?_ ?_ ?_, hi.broken, hi.nodup, hi.ent, hi.rest, one_goto f2 hi.one⟩
      · rintro r (hr | ⟨k, d, s, r', hk, hr, _⟩)
        · rw [f1] at hr; cases hr
        · rw [f2 k d s hk] at hr; cases hr
      · intro u op' hu
        by_cases hut : u = t
        · subst hut
          obtain ⟨d, rfl, hx | hx⟩ := waits_goto_self f2 hu
          · injection hx with hx; subst hx
            exact .inr ⟨rfl, rfl⟩
          · cases hx
        · exact .inl ⟨hut, (waits_goto hut op').1 hu⟩
      · intro u r
        by_cases hut : u = t
        · subst hut
          rw [ready_goto_self f2]
          constructor
          · intro hx; cases hx
          · rintro (hr | ⟨k, d, s, r', hk, hr, _⟩)
            · rw [f1] at hr; cases hr
            · rw [f2 k d s hk] at hr; cases hr
        · exact ready_goto hut r
    · cases hs
  | look t =>
    simp only [step] at hs
    split at hs
    · rename_i dir hth
      have f2 := new_only hi (t := t) (by rw [hth]; simp)
      have hnr : ∀ r, ¬ m.Ready t r := by
        rintro r (hr | ⟨k, d, s, r', hk, hr, _⟩)
        · rw [hth] at hr; cases hr
        · rw [f2 k d s hk] at hr; cases hr
      have hpoint : ∀ {r : MRes} {q : Process}, ProcessBehaves disk p (.new dir) r q →
          ∃ L', HInv (ProcessBehaves disk) {} (m.goto t (.done r)).Waits (m.goto t (.done r)).Ready h L' q := by
        intro r q hb
        refine hinv_point (W' := (m.goto t (.done r)).Waits) (R' := (m.goto t (.done r)).Ready) hi.hist (t := t) (op := .new dir) (.inl hth) hb hnr ?_ ?_
        · intro u op' hu
          by_cases hut : u = t
          · subst hut
            obtain ⟨d, rfl, hx | hx⟩ := waits_goto_self f2 hu <;> cases hx
          · exact ⟨hut, (waits_goto hut op').1 hu⟩
        · intro u r'
          by_cases hut : u = t
          · subst hut
            rw [ready_goto_self f2]
            simp only [hnr, false_or, true_and, NSt.done.injEq]
            exact eq_comm
          · rw [ready_goto hut]
            simp [hut]
      split at hs
      · rename_i hpo
        injection hs with hs; injection hs with h1 h2; subst h1 h2
        simp only [Option.toList, List.append_nil]
        obtain ⟨L', hL⟩ := hpoint (.broken (hi.broken.trans hpo))
        exact ⟨L', p, hL, hi.broken, hi.nodup, hi.ent, hi.rest, one_goto f2 hi.one⟩
      · rename_i hpo
        split at hs
        · rename_i hhas
          injection hs with hs; injection hs with h1 h2; subst h1 h2
          simp only [Option.toList, List.append_nil]
          obtain ⟨k, s, hk⟩ := has_iff.1 hhas
          obtain ⟨σ, hσ, _⟩ := hi.ent k dir s hk
          obtain ⟨L', hL⟩ := hpoint (.again (by rw [hi.broken]; simpa using hpo) hσ)
          exact ⟨L', p, hL, hi.broken, hi.nodup, hi.ent, hi.rest, one_goto f2 hi.one⟩
        · injection hs with hs; injection hs with h1 h2; subst h1 h2
          simp only [Option.toList, List.append_nil]
          refine ⟨L, p, hinv_quiet hi.hist ?_ ?_, hi.broken, hi.nodup, hi.ent, hi.rest, one_goto f2 hi.one⟩
          · intro u op' hu
            by_cases hut : u = t
            · subst hut
              obtain ⟨d, rfl, hx | hx⟩ := waits_goto_self f2 hu
              · cases hx
              · injection hx with hx; subst hx
                exact .inl hth
            · exact (waits_goto hut op').1 hu
          · intro u r
            by_cases hut : u = t
            · subst hut
              rw [ready_goto_self f2]
              simp [hnr]
            · exact ready_goto hut r
    · cases hs
  | create t =>
    simp only [step] at hs
    split at hs
    · rename_i dir hth
      have f2 := new_only hi (t := t) (by rw [hth]; simp)
      have hnr : ∀ r, ¬ m.Ready t r := by
        rintro r (hr | ⟨k, d, s, r', hk, hr, _⟩)
        · rw [hth] at hr; cases hr
        · rw [f2 k d s hk] at hr; cases hr
      have hpoint : ∀ {r : MRes} {q : Process}, ProcessBehaves disk p (.new dir) r q →
          ∃ L', HInv (ProcessBehaves disk) {} (m.goto t (.done r)).Waits (m.goto t (.done r)).Ready h L' q := by
        intro r q hb
        refine hinv_point (W' := (m.goto t (.done r)).Waits) (R' := (m.goto t (.done r)).Ready) hi.hist (t := t) (op := .new dir) (.inr hth) hb hnr ?_ ?_
        · intro u op' hu
          by_cases hut : u = t
          · subst hut
            obtain ⟨d, rfl, hx | hx⟩ := waits_goto_self f2 hu <;> cases hx
          · exact ⟨hut, (waits_goto hut op').1 hu⟩
        · intro u r'
          by_cases hut : u = t
          · subst hut
            rw [ready_goto_self f2]
            simp only [hnr, false_or, true_and, NSt.done.injEq]
            exact eq_comm
          · rw [ready_goto hut]
            simp [hut]
      split at hs
      · rename_i hpo
        injection hs with hs; injection hs with h1 h2; subst h1 h2
        simp only [Option.toList, List.append_nil]
        obtain ⟨L', hL⟩ := hpoint (.broken (hi.broken.trans hpo))
        exact ⟨L', p, hL, hi.broken, hi.nodup, hi.ent, hi.rest, one_goto f2 hi.one⟩
      · rename_i hpo
        have hpf : p.broken = false := by rw [hi.broken]; simpa using hpo
        split at hs
        · rename_i hhas
          injection hs with hs; injection hs with h1 h2; subst h1 h2
          simp only [Option.toList, List.append_nil]
          obtain ⟨k, s, hk⟩ := has_iff.1 hhas
          obtain ⟨σ, hσ, _⟩ := hi.ent k dir s hk
          obtain ⟨L', hL⟩ := hpoint (.again hpf hσ)
          exact ⟨L', p, hL, hi.broken, hi.nodup, hi.ent, hi.rest, one_goto f2 hi.one⟩
        · rename_i hhas
          have hno : ∀ (k : Nat) (s : Threads ι), m.stores[k]? ≠ some (dir, s) := fun k s hk => hhas (has_iff.2 ⟨k, s, hk⟩)
          have hdn := hi.rest dir hno
          split at hs
          · rename_i hok
            injection hs with hs; injection hs with h1 h2; subst h1 h2
            simp only [Option.toList, List.append_nil]
            obtain ⟨L', hL⟩ := hpoint (.bad hpf hdn ((hdisk dir).2 (.inl hok)))
            exact ⟨L', { p with broken := true }, hL, rfl, hi.nodup, hi.ent, hi.rest, one_goto f2 hi.one⟩
          · rename_i hok
            split at hs
            · rename_i hop
              injection hs with hs; injection hs with h1 h2; subst h1 h2
              simp only [Option.toList, List.append_nil]
              obtain ⟨L', hL⟩ := hpoint (.bad hpf hdn ((hdisk dir).2 (.inr hop)))
              exact ⟨L', { p with broken := true }, hL, rfl, hi.nodup, hi.ent, hi.rest, one_goto f2 hi.one⟩
            · rename_i s0 hop
              injection hs with hs; injection hs with h1 h2; subst h1 h2
              simp only [Option.toList, List.append_nil]
              obtain ⟨T, hT, hsh⟩ := (hdisk dir).1 (by simpa using hok) s0 hop
              obtain ⟨L', hL⟩ := hpoint (.first hpf hdn hT)
              have hidle : ∀ u, face (({ inst := s0 } : Threads ι).th u) = .idle := fun _ => rfl
              have hL2 := hinv_quiet (W' := ({ m.goto t (.done .opened) with stores := m.stores ++ [(dir, { inst := s0 })] } : Multi ι).Waits)
                (R' := ({ m.goto t (.done .opened) with stores := m.stores ++ [(dir, { inst := s0 })] } : Multi ι).Ready) hL
                (fun u op => (waits_append (m := m.goto t (.done .opened)) hidle u op).1) (fun u r => ready_append (m := m.goto t (.done .opened)) hidle u r)
              refine ⟨L', p.set dir { map := T }, hL2, hi.broken, ?_, ?_, ?_, ?_⟩
              · intro k k' d s s' hk hk'
                rcases getElem?_snoc_new.1 hk with hq | ⟨rfl, hz⟩ <;> rcases getElem?_snoc_new.1 hk' with hq' | ⟨rfl, hz'⟩
                · exact hi.nodup _ _ _ _ _ hq hq'
                · injection hz' with e1 _; subst e1; exact absurd hq (hno k s)
                · injection hz with e1 _; subst e1; exact absurd hq' (hno k' s')
                · rfl
              · intro k d s hk
                rcases getElem?_snoc_new.1 hk with hq | ⟨rfl, hz⟩
                · have : d ≠ dir := by rintro rfl; exact hno k s hq
                  simp only [Process.set, if_neg this]
                  exact hi.ent k d s hq
                · injection hz with e1 e2; subst e1 e2
                  exact ⟨{ map := T }, by simp [Process.set], sinv_start hop hsh⟩
              · intro d hd
                have hdd : d ≠ dir := by rintro rfl; exact hd m.stores.length { inst := s0 } (getElem?_snoc_new.2 (.inr ⟨rfl, rfl⟩))
                simp only [Process.set, if_neg hdd]
                exact hi.rest d fun k s hk => hd k s (getElem?_snoc_new.2 (.inl hk))
              · intro u k d s hk hu
                rcases getElem?_snoc_new.1 hk with hq | ⟨rfl, hz⟩
                · obtain ⟨g1, g2⟩ := one_goto (x := .done .opened) f2 hi.one u k d s hq hu
                  refine ⟨g1, ?_⟩
                  intro k' d' s' hk' hu'
                  rcases getElem?_snoc_new.1 hk' with hq' | ⟨rfl, hz'⟩
                  · exact g2 k' d' s' hq' hu'
                  · injection hz' with _ e2; subst e2
                    exact absurd rfl hu'
                · injection hz with _ e2; subst e2
                  exact absurd rfl hu
    · cases hs
  | ret t =>
    simp only [step] at hs
    split at hs
    · rename_i r hth
      injection hs with hs; injection hs with h1 h2; subst h1 h2
      have f2 := new_only hi (t := t) (by rw [hth]; simp)
      refine ⟨L, p, hinv_ret hi.hist (.inl hth) ?_ ?_ ?_, hi.broken, hi.nodup, hi.ent, hi.rest, one_goto f2 hi.one⟩
      · rintro r' (hr | ⟨k, d, s, r'', hk, hr, _⟩)
        · rw [hth] at hr; injection hr with hr; exact hr.symm
        · rw [f2 k d s hk] at hr; cases hr
      · intro u op' hu
        by_cases hut : u = t
        · subst hut
          obtain ⟨d, rfl, hx | hx⟩ := waits_goto_self f2 hu <;> cases hx
        · exact ⟨hut, (waits_goto hut op').1 hu⟩
      · intro u r'
        by_cases hut : u = t
        · subst hut
          rw [ready_goto_self f2]
          simp
        · rw [ready_goto hut]
          simp [hut]
    · cases hs
  | on k e =>
    simp only [step] at hs
    split at hs
    · cases hs
    · rename_i dir s hk
      split at hs
      · rename_i hcal
        split at hs
        · cases hs
        · rename_i s' w hst
          injection hs with hs; injection hs with h1 h2; subst h1 h2
          obtain ⟨σ, hσ, hsi⟩ := hi.ent k dir s hk
          obtain ⟨hkind, hcaller⟩ := kind_step hsi hst
          cases hkind with
          | @call t op hf hf' ho hsi' =>
            have hfree : m.free t = true := by
              have := hcaller t op rfl
              rw [this] at hcal
              simpa using hcal
            obtain ⟨f1, f2⟩ := free_iff.1 hfree
            have hat : m.OnlyAt k t := ⟨f1, fun k' d' s' _ hk' => f2 k' d' s' hk'⟩
            refine ⟨L, p, rest_set hi hk hsi' ?_ rfl hσ (fun _ _ => rfl) (hinv_call hi.hist (t := t) (op := .on dir op) ?_ ?_ ?_)⟩
            · intro u hu
              by_cases hut : u = t
              · subst hut; exact hat
              · rw [ho u hut] at hu
                exact onlyAt_active hi hk hu
            · rintro r (hr | ⟨k', d, s, r', hk', hr, _⟩)
              · rw [f1] at hr; cases hr
              · rw [f2 k' d s hk'] at hr; cases hr
            · intro u op' hu
              by_cases hut : u = t
              · subst hut
                obtain ⟨op2, rfl, hx⟩ := waits_set_self hk hat hu
                rw [hf'] at hx
                injection hx with hx; subst hx
                exact .inr ⟨rfl, rfl⟩
              · exact .inl ⟨hut, (waits_set hk (by rw [ho u hut]) op').1 hu⟩
            · intro u r
              by_cases hut : u = t
              · subst hut
                rw [ready_set_self hk hat, hf']
                constructor
                · rintro ⟨_, _, hx⟩; cases hx
                · rintro (hr | ⟨k', d, s, r', hk', hr, _⟩)
                  · rw [f1] at hr; cases hr
                  · rw [f2 k' d s hk'] at hr; cases hr
              · exact ready_set hk (by rw [ho u hut]) r
          | quiet hf hsi' =>
            simp only [Option.map_none, Option.toList, List.append_nil]
            refine ⟨L, p, rest_set hi hk hsi' ?_ rfl hσ (fun _ _ => rfl) (hinv_quiet hi.hist ?_ ?_)⟩
            · intro u hu
              rw [hf u] at hu
              exact onlyAt_active hi hk hu
            · intro u op' hu
              exact (waits_set hk (hf u) op').1 hu
            · intro u r
              exact ready_set hk (hf u) r
          | @point t op r σ' hf hf' ho hb hsi' =>
            simp only [Option.map_none, Option.toList, List.append_nil]
            have hat : m.OnlyAt k t := onlyAt_active hi hk (t := t) (by rw [hf]; simp)
            have hnr : ∀ r, ¬ m.Ready t r := by
              rintro r (hr | ⟨k', d, s'', r', hk', hr, _⟩)
              · rw [hat.1] at hr; cases hr
              · by_cases hkk : k' = k
                · subst hkk
                  rw [hk] at hk'
                  injection hk' with hk'; injection hk' with _ e2; subst e2
                  rw [hf] at hr; cases hr
                · rw [hat.2 k' d s'' hkk hk'] at hr; cases hr
            obtain ⟨L', hL⟩ := hinv_point (W' := ({ m with stores := m.stores.set k (dir, s') } : Multi ι).Waits)
              (R' := ({ m with stores := m.stores.set k (dir, s') } : Multi ι).Ready) hi.hist (t := t) (op := .on dir op) (r := .res r)
              ⟨k, s, hk, hf⟩ (.call hσ hb) hnr (by
                intro u op' hu
                by_cases hut : u = t
                · subst hut
                  obtain ⟨op2, rfl, hx⟩ := waits_set_self hk hat hu
                  rw [hf'] at hx
                  cases hx
                · exact ⟨hut, (waits_set hk (by rw [ho u hut]) op').1 hu⟩) (by
                intro u r'
                by_cases hut : u = t
                · subst hut
                  rw [ready_set_self hk hat, hf']
                  simp only [hnr, false_or, true_and, Face.done.injEq]
                  constructor
                  · rintro ⟨x, rfl, rfl⟩; rfl
                  · rintro rfl; exact ⟨r, rfl, rfl⟩
                · rw [ready_set hk (by rw [ho u hut])]
                  simp [hut])
            refine ⟨L', p.set dir σ', rest_set hi hk hsi' ?_ rfl (by simp [Process.set]) (fun e he => by simp [Process.set, he]) hL⟩
            intro u hu
            by_cases hut : u = t
            · subst hut; exact hat
            · rw [ho u hut] at hu
              exact onlyAt_active hi hk hu
          | @ret t r hf hf' ho hsi' =>
            have hat : m.OnlyAt k t := onlyAt_active hi hk (t := t) (by rw [hf]; simp)
            refine ⟨L, p, rest_set hi hk hsi' ?_ rfl hσ (fun _ _ => rfl) (hinv_ret hi.hist (t := t) (r := .res r) ?_ ?_ ?_ ?_)⟩
            · intro u hu
              by_cases hut : u = t
              · subst hut; exact hat
              · rw [ho u hut] at hu
                exact onlyAt_active hi hk hu
            · exact .inr ⟨k, dir, s, r, hk, hf, rfl⟩
            · rintro r' (hr | ⟨k', d, s'', r'', hk', hr, he⟩)
              · rw [hat.1] at hr; cases hr
              · by_cases hkk : k' = k
                · subst hkk
                  rw [hk] at hk'
                  injection hk' with hk'; injection hk' with _ e2; subst e2
                  rw [hf] at hr; injection hr with hr; subst hr; exact he
                · rw [hat.2 k' d s'' hkk hk'] at hr; cases hr
            · intro u op' hu
              by_cases hut : u = t
              · subst hut
                obtain ⟨op2, rfl, hx⟩ := waits_set_self hk hat hu
                rw [hf'] at hx
                cases hx
              · exact ⟨hut, (waits_set hk (by rw [ho u hut]) op').1 hu⟩
            · intro u r'
              by_cases hut : u = t
              · subst hut
                rw [ready_set_self hk hat, hf']
                simp
              · rw [ready_set hk (by rw [ho u hut])]
                simp [hut]
      · cases hs

theorem ginv_run {S : MSys ι} {disk : String → Option Store} (hdisk : S.Holds disk) (es : List (MEv ι)) {m m' : Multi ι} {h h' : List (HEv MOp MRes)}
    {L : List (Nat × MOp × MRes)} {p : Process} (hi : GInv S disk m h L p) (hs : run S m es = some (m', h')) :
    ∃ L' p', GInv S disk m' (h ++ h') L' p' := by
  induction es generalizing m h L p h' with
  | nil =>
    simp only [run, Option.some.injEq, Prod.mk.injEq] at hs
    obtain ⟨rfl, rfl⟩ := hs
    exact ⟨L, p, by simpa using hi⟩
  | cons e es ih =>
    simp only [run] at hs
    split at hs
    · cases hs
    rename_i m1 v hst
    split at hs
    · cases hs
    rename_i m2 h2 hrun
    simp only [Option.some.injEq, Prod.mk.injEq] at hs
    obtain ⟨rfl, rfl⟩ := hs
    obtain ⟨L1, p1, h1⟩ := ginv_step hdisk hi hst
    obtain ⟨L2, p2, h3⟩ := ih h1 hrun
    exact ⟨L2, p2, by simpa [List.append_assoc] using h3⟩

end Multi

/-- **C74.**  A process starts on any number of directories with any files in them (distinct strings name distinct directories).  Any number
of threads open directories with `new`, and make any calls on the stores they get, in any schedule, with anything failing; handles are
kept.  What they observe is linearizable as a whole: there is one order of all the calls, over all directories, agreeing with
real time, in which the results are those of a sequential process (`ProcessBehaves`) whose directories are independent objects: the
first `new` of a directory finds what the disk held, a call changes the object of its own directory only, and a `new` that fails breaks
later ones. -/
theorem C74_linearizable {S : MSys ι} {disk : String → Option Store} (hdisk : S.Holds disk) {es : List (MEv ι)} {m : Multi ι}
    {h : List (HEv MOp MRes)} (hrun : Multi.run S {} es = some (m, h)) : Linearizable (ProcessBehaves disk) {} h := by
  obtain ⟨L, p, hi⟩ := Multi.ginv_run hdisk es (Multi.ginv_start S disk) hrun
  exact ⟨L, p, by simpa using hi.hist.lin⟩

/-- The call has failed. -/
def MRes.failed : MRes → Bool
  | .opened => false
  | .panicked => true
  | .res r => r.failed

/-- The sequential process while nothing fails: a plain map for each open directory. -/
inductive MapsBehave (disk : String → Option Store) : (String → Option Store) → MOp → MRes → (String → Option Store) → Prop
  | again {p d S} (h : p d = some S) : MapsBehave disk p (.new d) .opened p
  | first {p d S} (h : p d = none) (hd : disk d = some S) : MapsBehave disk p (.new d) .opened (fun e => if e = d then some S else p e)
  | call {p d S op r S'} (h : p d = some S) (hb : MapBehaves S op r S') : MapsBehave disk p (.on d op) (.res r) (fun e => if e = d then some S' else p e)

/-- No call has failed, neither one that has returned nor one that is about to. -/
def Multi.NoFailure (m : Multi ι) (h : List (HEv MOp MRes)) : Prop :=
  (∀ t r, .res t r ∈ h → r.failed = false) ∧ (∀ t r, m.th t = .done r → r.failed = false) ∧
    ∀ p ∈ m.stores, ∀ t r, p.2.th t = .done r → r.failed = false

/-- The maps of a process. -/
def Process.maps (p : Process) : String → Option Store := fun d => (p.dirs d).map (·.map)

theorem process_maps_set (p : Process) (d : String) (o : Object) : (p.set d o).maps = fun e => if e = d then some o.map else p.maps e := by
  funext e
  simp only [Process.maps, Process.set]
  split <;> simp

theorem behaves_maps {disk : String → Option Store} {p p' : Process} {op : MOp} {r : MRes} (h : ProcessBehaves disk p op r p')
    (hl : p.broken = false ∧ ∀ d o, p.dirs d = some o → o.live) (hr : r.failed = false) :
    (p'.broken = false ∧ ∀ d o, p'.dirs d = some o → o.live) ∧ MapsBehave disk p.maps op r p'.maps := by
  cases h with
  | broken h => rw [hl.1] at h; cases h
  | again h hd => exact ⟨hl, .again (S := _) (by simp [Process.maps, hd]; rfl)⟩
  | @first d T h hd hS =>
    refine ⟨⟨hl.1, ?_⟩, ?_⟩
    · intro e o he
      simp only [Process.set] at he
      split at he
      · injection he with he; subst he; exact ⟨rfl, rfl⟩
      · exact hl.2 e o he
    · rw [process_maps_set]
      exact .first (by simp [Process.maps, hd]) hS
  | bad => simp [MRes.failed] at hr
  | @call d o op r o' hd hb =>
    obtain ⟨g1, g2⟩ := behaves_map hb (hl.2 d o hd) hr
    refine ⟨⟨hl.1, ?_⟩, ?_⟩
    · intro e x he
      simp only [Process.set] at he
      split at he
      · injection he with he; subst he; exact g1
      · exact hl.2 e x he
    · rw [process_maps_set]
      exact .call (by simp [Process.maps, hd]) g2

theorem legal_maps {disk : String → Option Store} {p p' : Process} {l : List (MOp × MRes)} (h : Legal (ProcessBehaves disk) p l p')
    (hl : p.broken = false ∧ ∀ d o, p.dirs d = some o → o.live) (hr : ∀ x ∈ l, x.2.failed = false) :
    (p'.broken = false ∧ ∀ d o, p'.dirs d = some o → o.live) ∧ Legal (MapsBehave disk) p.maps l p'.maps := by
  induction h with
  | nil => exact ⟨hl, .nil _⟩
  | cons h _ ih =>
    obtain ⟨g1, g2⟩ := behaves_maps h hl (hr _ List.mem_cons_self)
    obtain ⟨g3, g4⟩ := ih g1 fun x hx => hr x (List.mem_cons_of_mem _ hx)
    exact ⟨g3, .cons g2 g4⟩

/-- **C74** while nothing fails: the sequential process is one plain map for each directory that has been opened, and every store whose
write lock is free shows the map of its directory at the end of the order. -/
theorem C74_linearizable_maps {S : MSys ι} {disk : String → Option Store} (hdisk : S.Holds disk) {es : List (MEv ι)} {m : Multi ι}
    {h : List (HEv MOp MRes)} (hrun : Multi.run S {} es = some (m, h)) (hok : m.NoFailure h) :
    ∃ L last, Linearization (MapsBehave disk) (fun _ => none) h L last ∧
      ∀ d s, (d, s) ∈ m.stores → s.owner = none → ∃ T, last d = some T ∧ s.inst.Shows T := by
  obtain ⟨L, p, hi⟩ := Multi.ginv_run hdisk es (Multi.ginv_start S disk) hrun
  simp only [List.nil_append] at hi
  have hL : ∀ x ∈ L, x.2.2.failed = false := by
    intro x hx
    rcases hi.hist.known x hx with ⟨j, t, _, h2, _⟩ | ⟨t, ht | ⟨k, d, s, r, hk, hf, he⟩, _⟩
    · exact hok.1 t _ (List.mem_of_getElem? h2)
    · exact hok.2.1 t _ ht
    · rw [he]
      have hd : s.th t = .done r := by
        revert hf
        cases s.th t <;> simp [Multi.face]
      exact hok.2.2 (d, s) (List.mem_of_getElem? hk) t r hd
  obtain ⟨h1, h2⟩ := legal_maps hi.hist.lin.legal ⟨rfl, by intro d o h; cases h⟩ (by
    intro y hy
    obtain ⟨x, hx, rfl⟩ := List.mem_map.1 hy
    exact hL x hx)
  refine ⟨L, p.maps, ⟨hi.hist.lin.distinct, hi.hist.lin.invoked, hi.hist.lin.complete, h2, hi.hist.lin.order⟩, ?_⟩
  intro d s hm ho
  obtain ⟨k, hk⟩ := List.getElem?_of_mem hm
  obtain ⟨σ, hσ, hs⟩ := hi.ent k d s hk
  refine ⟨σ.map, by simp [Process.maps, hσ], ?_⟩
  obtain ⟨_, g1, g2⟩ := hs.free ho
  obtain ⟨l1, l2⟩ := h1.2 d σ hσ
  have hp : s.inst.poisoned = false := g1.symm.trans l1
  obtain ⟨g3, g4⟩ := g2 hp
  have hv : s.inst.valid = true := by rw [l2] at g3; simpa using g3
  exact (shows_iff hp hv hs.live).2 (g4 hv).symm

/-- Directories "a", "b", ...: empty; "bad" is not a directory. -/
def multiSys : MSys Unit := { codecs := plain, page := 64, file := fun _ => [], key := fun _ => (), dirOk := fun d => d != "bad" }

/-- What they hold. -/
def multiDisk : String → Option Store := fun d => if d = "bad" then none else some Store.empty

theorem multi_holds : multiSys.Holds multiDisk := by
  intro d
  constructor
  · intro hd s hs
    have : d ≠ "bad" := by simpa [multiSys] using hd
    exact ⟨Store.empty, by simp [multiDisk, this], (openAt_nil_shows (page := 64) hs).1⟩
  · rintro (hd | hn)
    · have : d = "bad" := by simpa [multiSys] using hd
      simp [multiDisk, this]
    · have : openAt plain () 64 [] ≠ none := by decide +kernel
      exact absurd hn this

/-- Threads 0 and 1 open "a" at the same time, both finding nothing at first; thread 1 opens "b" as well.  Then thread 0 puts "k" into "a" while
thread 1 puts "k" into "b" and reads "k" from "a". -/
def multiDemo : List (MEv Unit) :=
  [.call 0 "a", .call 1 "a", .look 0, .look 1, .create 1, .create 0, .ret 0, .ret 1, .call 1 "b", .look 1,
   .on 0 (.call 0 (.mut (.put "k" ⟨6, [7]⟩))), .create 1, .on 0 (.lock 0), .ret 1, .on 1 (.call 1 (.mut (.put "k" ⟨6, [8]⟩))), .on 1 (.lock 1),
   .on 0 (.work 0 ()), .on 1 (.work 1 ()), .on 1 (.work 1 ()), .on 1 (.ret 1), .on 0 (.call 1 (.get "k" 6)), .on 0 (.work 0 ()), .on 0 (.io id),
   .on 0 (.lock 1), .on 0 (.work 1 ()), .on 0 (.ret 1), .on 0 (.ret 0)]

/-- What an observer sees of it. -/
def multiHist : List (HEv MOp MRes) :=
  [.inv 0 (.new "a"), .inv 1 (.new "a"), .res 0 .opened, .res 1 .opened, .inv 1 (.new "b"), .inv 0 (.on "a" (.mut (.put "k" ⟨6, [7]⟩))), .res 1 .opened,
   .inv 1 (.on "b" (.mut (.put "k" ⟨6, [8]⟩))), .res 1 (.res (.ok none)), .inv 1 (.on "a" (.get "k" 6)), .res 1 (.res (.ok (some [7]))), .res 0 (.res (.ok none))]

/-- The hypotheses of C74 are met by this history. -/
example : multiSys.Holds multiDisk ∧ ∃ m, Multi.run multiSys {} multiDemo = some (m, multiHist) ∧ m.NoFailure multiHist ∧
    (m.stores.map (·.1)) = ["a", "b"] := by
  refine ⟨multi_holds, ?_⟩
  have hc : (match Multi.run multiSys {} multiDemo with
      | some (m, h) => decide (h = multiHist) && m.free 0 && m.free 1 && decide ((m.stores.map (·.1)) = ["a", "b"])
      | none => false) = true := by decide +kernel
  split at hc
  · rename_i m h hr
    simp only [Bool.and_eq_true, decide_eq_true_eq] at hc
    obtain ⟨⟨⟨rfl, f0⟩, f1⟩, hst⟩ := hc
    refine ⟨m, hr, ?_, hst⟩
    obtain ⟨L, p, hi⟩ := Multi.ginv_run multi_holds multiDemo (Multi.ginv_start multiSys multiDisk) hr
    have hnone : ∀ t r, ¬ m.Ready t r := by
      intro t r hrd
      obtain ⟨pos, op, ⟨hp, _⟩, _⟩ := hi.hist.done t r hrd
      have hm := List.mem_of_getElem? hp
      have ht : t = 0 ∨ t = 1 := by
        simp [multiHist] at hm
        rcases hm with ⟨rfl, _⟩ | ⟨rfl, _⟩ | ⟨rfl, _⟩ | ⟨rfl, _⟩ | ⟨rfl, _⟩ | ⟨rfl, _⟩ <;> simp
      have hfree : m.free t = true := by rcases ht with rfl | rfl <;> assumption
      obtain ⟨g1, g2⟩ := Multi.free_iff.1 hfree
      rcases hrd with hrd | ⟨k, d, s, r', hk, hf, _⟩
      · rw [g1] at hrd; cases hrd
      · rw [g2 k d s hk] at hf; cases hf
    refine ⟨?_, fun t r ht => absurd (.inl ht) (hnone t r), ?_⟩
    · intro t r he
      have hall : (multiHist.all fun e => match e with | .res _ r => !r.failed | .inv _ _ => true) = true := by decide
      simpa using List.all_eq_true.1 hall _ he
    · intro q hq t r ht
      obtain ⟨k, hk⟩ := List.getElem?_of_mem hq
      exact absurd (.inr ⟨k, q.1, q.2, r, hk, by rw [ht]; rfl, rfl⟩) (hnone t (.res r))
  · cases hc

/-- ... and with a failure: thread 1 opens "bad" while thread 0 opens "a" (it gets its handle), and a later `new` of "b" panics. -/
example : (Multi.run multiSys {} [.call 0 "a", .call 1 "bad", .look 0, .look 1, .create 0, .create 1, .ret 0, .ret 1, .call 0 "b", .look 0, .ret 0]).map (·.2) =
    some [.inv 0 (.new "a"), .inv 1 (.new "bad"), .res 0 .opened, .res 1 .panicked, .inv 0 (.new "b"), .res 0 .panicked] := by decide +kernel

end Mmkv
