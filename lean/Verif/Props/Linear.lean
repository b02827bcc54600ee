import Verif.Model.Threads
import Verif.Lemmas.Linear
import Verif.Props.Clear
import Verif.Props.Silent
/-!
# Linearizability: C70
-/

namespace Mmkv
open Spec Inst
variable {ι : Type}

/-- The sequential object, failures included: a plain map, whether a `clear_data` has failed (`closed`) and whether a panic has
poisoned the lock. -/
structure Object where
  map : Store
  closed : Bool := false
  poisoned : Bool := false

/-- A map in normal use. -/
def Object.live (o : Object) : Prop := o.poisoned = false ∧ o.closed = false

/-- What one call, made alone, may do to the object and return. -/
inductive Behaves : Object → Op → Res → Object → Prop
  /-- after a panic inside a call every call reports `LockError` -/
  | locked {o op} (h : o.poisoned = true) : Behaves o op (.err (.lockError "")) o
  /-- after a failed `clear_data` every other call reports `InstanceClosed` -/
  | shut {o op} (h : o.poisoned = false) (hc : o.closed = true) (hop : op ≠ .mut .clear) : Behaves o op (.err .instanceClosed) o
  /-- get: what the map holds -/
  | get {o k t} (h : o.live) : Behaves o (.get k t) (Store.lookup o.map k t fun bs => .ok (some bs)) o
  /-- put and delete -/
  | write {o m} (h : o.live) (hm : m ≠ .clear) : Behaves o (.mut m) (.ok none) { o with map := o.map.apply m }
  /-- put and delete that cannot be saved: reported, but the map changes (cf. C34) -/
  | writeFailed {o m} (h : o.live) (hm : m ≠ .clear) (hd : ∀ k, m = .delete k → o.map k ≠ none) :
      Behaves o (.mut m) (.err ioErr) { o with map := o.map.apply m }
  /-- clear_data -/
  | clear {o} (h : o.live) : Behaves o (.mut .clear) (.ok none) ⟨Store.empty, false, false⟩
  /-- clear_data that cannot be done -/
  | clearFailed {o} (h : o.live) : Behaves o (.mut .clear) (.err ioErr) { o with closed := true }
  /-- clear_data that panics -/
  | clearPanic {o} (h : o.poisoned = false) : Behaves o (.mut .clear) .panic { o with poisoned := true }
  /-- clear_data after one that failed: whatever the file holds is back (cf. C59) -/
  | reopen {o S} (h : o.poisoned = false) (hc : o.closed = true) : Behaves o (.mut .clear) (.ok none) ⟨S, false, false⟩

/-- The sequential object while nothing fails: a plain map. -/
def MapBehaves (S : Store) (op : Op) (r : Res) (S' : Store) : Prop :=
  match op with
  | .mut m => r = .ok none ∧ S' = S.apply m
  | .get k t => r = (Store.lookup S k t fun bs => .ok (some bs)) ∧ S' = S

/-- The call has failed (`KeyNotFound` and `TypeMissMatch` are answers, not failures). -/
def Res.failed : Res → Bool
  | .ok _ => false
  | .err .keyNotFound => false
  | .err .typeMissMatch => false
  | _ => true

namespace Threads

/-- The store is the sequential object. -/
def Rel (σ : Object) (s : Inst ι) : Prop :=
  σ.poisoned = s.poisoned ∧ (s.poisoned = false → σ.closed = !s.valid ∧ (s.valid = true → σ.map = view s.kv))

/-- The call `m` that began when the store was `σ` is under way. -/
def Mid (m : Mutation) (σ : Object) (s : Inst ι) : Prop :=
  s.poisoned = false ∧ σ.poisoned = false ∧
  ((m ≠ .clear ∧ σ.closed = false ∧ s.valid = true ∧ view s.kv = σ.map.apply m ∧ (∀ k, m = .delete k → σ.map k ≠ none) ∧
      ((∃ j, s.phase = .push j) ∨ s.phase = .send)) ∨
   (m = .clear ∧ σ.closed = false ∧ s.valid = false ∧ s.Clearing) ∨
   (m = .clear ∧ σ.closed = true ∧ s.valid = false ∧ s.phase = .clrOpen))

theorem begin_step {codecs : ι → Codec} {s s' : Inst ι} {m : Mutation} {r : Option (Out Unit)} {σ : Object} (hk : Inst.Kept codecs s)
    (hph : s.phase = .idle) (hr : Rel σ s) (hs : Inst.step codecs s (evOf m) = some (s', r)) :
    (r = none ∧ Mid m σ s') ∨ ∃ x σ', r = some x ∧ Behaves σ (.mut m) (resOf x) σ' ∧ Rel σ' s' ∧ s'.phase = .idle := by
  obtain ⟨hr1, hr2⟩ := hr
  cases m with
  | put k e =>
    simp only [evOf, Inst.step] at hs
    split at hs
    · cases hs
    split at hs
    · rename_i hp
      injection hs with hs; injection hs with h1 h2; subst h1 h2
      exact .inr ⟨_, σ, rfl, .locked (hr1.trans hp), ⟨hr1, hr2⟩, hph⟩
    rename_i hp
    have hp : s.poisoned = false := by simpa using hp
    obtain ⟨h3, h4⟩ := hr2 hp
    split at hs
    · rename_i hv
      injection hs with hs; injection hs with h1 h2; subst h1 h2
      exact .inr ⟨_, σ, rfl, .shut (hr1.trans hp) (by rw [h3, hv]; rfl) (by simp), ⟨hr1, hr2⟩, hph⟩
    rename_i hv
    have hv : s.valid = true := by simpa using hv
    injection hs with hs; injection hs with h1 h2; subst h1 h2
    refine .inl ⟨rfl, hp, hr1.trans hp, .inl ⟨by simp, by rw [h3, hv]; rfl, hv, ?_, by simp, .inl ⟨_, rfl⟩⟩⟩
    show view (s.kv.insert k (Buffer.ofRaw k e.token e.bytes)) = _
    rw [view_insert, h4 hv]
    rfl
  | delete k =>
    simp only [evOf, Inst.step] at hs
    split at hs
    · cases hs
    split at hs
    · rename_i hp
      injection hs with hs; injection hs with h1 h2; subst h1 h2
      exact .inr ⟨_, σ, rfl, .locked (hr1.trans hp), ⟨hr1, hr2⟩, hph⟩
    rename_i hp
    have hp : s.poisoned = false := by simpa using hp
    obtain ⟨h3, h4⟩ := hr2 hp
    split at hs
    · rename_i hv
      injection hs with hs; injection hs with h1 h2; subst h1 h2
      exact .inr ⟨_, σ, rfl, .shut (hr1.trans hp) (by rw [h3, hv]; rfl) (by simp), ⟨hr1, hr2⟩, hph⟩
    rename_i hv
    have hv : s.valid = true := by simpa using hv
    have hlive : σ.live := ⟨hr1.trans hp, by rw [h3, hv]; rfl⟩
    split at hs
    · rename_i hn
      injection hs with hs; injection hs with h1 h2; subst h1 h2
      refine .inr ⟨_, _, rfl, .write hlive (by simp), ⟨hr1, fun _ => ⟨h3, fun _ => ?_⟩⟩, hph⟩
      show σ.map.apply (.delete k) = view s.kv
      rw [h4 hv]
      funext k'
      simp only [Store.apply, view]
      split
      · rename_i hkk; subst hkk; simp at hn; simp [hn]
      · rfl
    · rename_i hn
      injection hs with hs; injection hs with h1 h2; subst h1 h2
      refine .inl ⟨rfl, hp, hlive.1, .inl ⟨by simp, hlive.2, hv, ?_, ?_, .inl ⟨_, rfl⟩⟩⟩
      · show view (s.kv.erase k) = _
        rw [view_erase, h4 hv]
      · intro k' hk' 
        injection hk' with hk'; subst hk'
        rw [h4 hv]
        intro hnone
        apply hn
        simp only [view, Option.map_eq_none_iff] at hnone
        simp [hnone]
  | clear =>
    simp only [evOf, Inst.step] at hs
    split at hs
    · cases hs
    split at hs
    · rename_i hp
      injection hs with hs; injection hs with h1 h2; subst h1 h2
      exact .inr ⟨_, σ, rfl, .locked (hr1.trans hp), ⟨hr1, hr2⟩, hph⟩
    rename_i hp
    have hp : s.poisoned = false := by simpa using hp
    obtain ⟨h3, h4⟩ := hr2 hp
    split at hs
    · rename_i hv
      injection hs with hs; injection hs with h1 h2; subst h1 h2
      exact .inl ⟨rfl, hp, hr1.trans hp, .inr (.inr ⟨rfl, by rw [h3, hv]; rfl, hv, rfl⟩)⟩
    · rename_i hv
      have hv : s.valid = true := by simpa using hv
      have hsd := hk.sender hv (by rw [hph]; simp)
      injection hs with hs; injection hs with h1 h2; subst h1 h2
      exact .inl ⟨rfl, hp, hr1.trans hp, .inr (.inl ⟨rfl, by rw [h3, hv]; rfl, rfl, .push rfl hsd⟩)⟩

theorem rel_open {codecs : ι → Codec} {i : ι} {page : Nat} {file : Bytes} {u : Nat} {q : Option Nat} {s : Inst ι}
    (h : openAt codecs i page file u q = some s) : Rel ⟨view s.kv, false, false⟩ s ∧ s.phase = .idle := by
  unfold openAt at h
  split at h
  · cases h
  · injection h with h; subst h; exact ⟨⟨rfl, fun _ => ⟨rfl, fun _ => rfl⟩⟩, rfl⟩

theorem work_step {codecs : ι → Codec} {s s' : Inst ι} {m : Mutation} {i : ι} {r : Option (Out Unit)} {σ : Object} (hk : Inst.Kept codecs s)
    (hm : Mid m σ s) (hs : Inst.step codecs s (.api i) = some (s', r)) :
    (r = none ∧ Mid m σ s') ∨ ∃ x σ', r = some x ∧ Behaves σ (.mut m) (resOf x) σ' ∧ Rel σ' s' ∧ s'.phase = .idle := by
  obtain ⟨hp, hσp, hcase⟩ := hm
  rcases hcase with ⟨hne, hσc, hv, hkv, hdel, hph⟩ | ⟨rfl, hσc, hv, hcl⟩ | ⟨rfl, hσc, hv, hph⟩
  · rcases hph with ⟨j, hph⟩ | hph
    · simp only [Inst.step, hph] at hs
      injection hs with hs; injection hs with h1 h2; subst h1 h2
      exact .inl ⟨rfl, hp, hσp, .inl ⟨hne, hσc, hv, hkv, hdel, .inr rfl⟩⟩
    · simp only [Inst.step, hph] at hs
      injection hs with hs; injection hs with h1 h2; subst h1 h2
      right
      have hrel : Rel { σ with map := σ.map.apply m } { s with lp := (Looper.send s.lp).1, phase := .idle } :=
        ⟨hσp.trans hp.symm, fun _ => ⟨by show σ.closed = !s.valid; rw [hσc, hv]; rfl, fun _ => hkv.symm⟩⟩
      cases hb : (Looper.send s.lp).2 with
      | true => exact ⟨_, _, rfl, by simp only [if_true]; exact .write ⟨hσp, hσc⟩ hne, hrel, rfl⟩
      | false => exact ⟨_, _, rfl, by simp only [Bool.false_eq_true, if_false]; exact .writeFailed ⟨hσp, hσc⟩ hne hdel, hrel, rfl⟩
  · have hfail : Rel { σ with closed := true } { s with phase := Phase.idle } :=
      ⟨hσp.trans hp.symm, fun _ => ⟨by show true = !s.valid; rw [hv]; rfl, fun h => by rw [show s.valid = true from h] at hv; cases hv⟩⟩
    rcases clearing_step hk hcl hs with ⟨rfl, hcl'⟩ | ⟨x, rfl, hx⟩
    · left
      have hkeep : s'.poisoned = false ∧ s'.valid = false := by
        simp only [Inst.step] at hs
        cases hph : s.phase <;> simp only [hph] at hs
        all_goals
          repeat' split at hs
          all_goals first
            | cases hs; done
            | (injection hs with hs; injection hs with h1 h2; subst h1; exact ⟨hp, hv⟩)
            | (injection hs with hs; injection hs with h1 h2; cases h2; done)
      exact ⟨rfl, hkeep.1, hσp, .inr (.inl ⟨rfl, hσc, hkeep.2, hcl'⟩)⟩
    · right
      cases x with
      | ok u =>
        cases u
        obtain ⟨j, _, hop⟩ := hx rfl
        obtain ⟨h1, h2⟩ := rel_open hop
        refine ⟨_, _, rfl, .clear ⟨hσp, hσc⟩, ?_, h2⟩
        have hsh := (openAt_nil_shows hop).1
        rw [(shows_open hop).1 hsh] at h1
        exact h1
      | err e =>
        have : e = ioErr ∧ s'.poisoned = false ∧ s'.valid = false ∧ s'.phase = .idle := by
          simp only [Inst.step] at hs
          cases hcl <;> rename_i hph <;> (try rename_i hph' ) <;> skip
          all_goals simp only [*] at hs
          all_goals
            repeat' split at hs
            all_goals first
              | cases hs; done
              | (injection hs with hs; injection hs with h1 h2; subst h1; cases h2; exact ⟨rfl, by first | rfl | exact hp, by first | rfl | exact hv, rfl⟩)
              | (injection hs with hs; injection hs with h1 h2; cases h2; done)
        obtain ⟨rfl, g1, g2, g3⟩ := this
        refine ⟨_, { σ with closed := true }, rfl, .clearFailed ⟨hσp, hσc⟩, ⟨hσp.trans g1.symm, fun _ => ⟨?_, ?_⟩⟩, g3⟩
        · rw [g2]; rfl
        · intro h; rw [g2] at h; cases h
      | panic =>
        have : s'.poisoned = true ∧ s'.phase = .idle := by
          simp only [Inst.step] at hs
          cases hcl <;> rename_i hph <;> (try rename_i hph' ) <;> skip
          all_goals simp only [*] at hs
          all_goals
            repeat' split at hs
            all_goals first
              | cases hs; done
              | (injection hs with hs; injection hs with h1 h2; subst h1; exact ⟨rfl, rfl⟩)
              | (exfalso; simp_all; done)
              | (injection hs with hs; injection hs with h1 h2; cases h2; done)
        exact ⟨_, { σ with poisoned := true }, rfl, .clearPanic hσp, ⟨this.1.symm, fun h => by rw [this.1] at h; cases h⟩, this.2⟩
  · right
    simp only [Inst.step, hph] at hs
    generalize (if s.lp.cb.removed = true then i else s.idx) = j at hs
    split at hs
    · injection hs with hs; injection hs with h1 h2; subst h1 h2
      exact ⟨_, { σ with poisoned := true }, rfl, .clearPanic hσp, ⟨rfl, fun h => by cases h⟩, rfl⟩
    · rename_i s1 ho
      obtain ⟨h1, h2⟩ := rel_open ho
      split at hs
      · injection hs with hs; injection hs with g1 g2; subst g1 g2
        exact ⟨_, _, rfl, .reopen hσp hσc, h1, h2⟩
      · split at hs
        · injection hs with hs; injection hs with g1 g2; subst g1 g2
          exact ⟨_, _, rfl, .reopen hσp hσc, h1, h2⟩
        · split at hs
          · injection hs with hs; injection hs with g1 g2; subst g1 g2
            exact ⟨_, { σ with poisoned := true }, rfl, .clearPanic hσp, ⟨rfl, fun h => by cases h⟩, h2⟩
          · cases hs

theorem io_keeps {codecs : ι → Codec} {s s' : Inst ι} {o : Order} {r : Option (Out Unit)}
    (hs : Inst.step codecs s (.io o) = some (s', r)) :
    r = none ∧ s'.phase = s.phase ∧ s'.kv = s.kv ∧ s'.valid = s.valid ∧ s'.poisoned = s.poisoned := by
  simp only [Inst.step] at hs
  split at hs
  · cases hs
  · injection hs with hs; injection hs with h1 h2; subst h1 h2; exact ⟨rfl, rfl, rfl, rfl, rfl⟩

theorem rel_io {codecs : ι → Codec} {s s' : Inst ι} {o : Order} {r : Option (Out Unit)} {σ : Object}
    (hs : Inst.step codecs s (.io o) = some (s', r)) (h : Rel σ s) : Rel σ s' := by
  obtain ⟨_, _, h2, h3, h4⟩ := io_keeps hs
  unfold Rel
  rw [h2, h3, h4]
  exact h

theorem mid_io {codecs : ι → Codec} {s s' : Inst ι} {o : Order} {r : Option (Out Unit)} {σ : Object} {m : Mutation} (hk : Inst.Kept codecs s)
    (hs : Inst.step codecs s (.io o) = some (s', r)) (h : Mid m σ s) : Mid m σ s' := by
  obtain ⟨h0, h1, h2, h3, h4⟩ := io_keeps hs
  obtain ⟨g1, g2, g3⟩ := h
  refine ⟨by rw [h4]; exact g1, g2, ?_⟩
  rcases g3 with ⟨a, b, c, d, e, f⟩ | ⟨a, b, c, d⟩ | ⟨a, b, c, d⟩
  · exact .inl ⟨a, b, by rw [h3]; exact c, by rw [h2]; exact d, e, by rw [h1]; exact f⟩
  · refine .inr (.inl ⟨a, b, by rw [h3]; exact c, ?_⟩)
    rcases clearing_step hk d hs with ⟨_, hc⟩ | ⟨x, hx, _⟩
    · exact hc
    · rw [h0] at hx; cases hx
  · exact .inr (.inr ⟨a, b, by rw [h3]; exact c, by rw [h1]; exact d⟩)

/-- The mutation of an entry of a linearization, and its result. -/
def mutOf (x : Nat × Op × Res) : Option Mutation := match x.2.1 with | .mut m => some m | .get _ _ => none
def mutRes (x : Nat × Op × Res) : Option Res := match x.2.1 with | .mut _ => some x.2.2 | .get _ _ => none

/-- The event is no drop; what the environment chooses (hash map orders, random bytes) satisfies `Q`. -/
def EvOk (Q : Ev ι → Prop) : Ev ι → Prop
  | .drop => False
  | .io o => Q (.io o)
  | .api i => Q (.api i)
  | _ => True

/-- What the environment chooses in a schedule satisfies `Q`. -/
def _root_.Mmkv.TEv.Chosen (Q : Ev ι → Prop) : TEv ι → Prop
  | .io o => Q (.io o)
  | .work _ i => Q (.api i)
  | _ => True

theorem _root_.Mmkv.TEv.chosen_true (e : TEv ι) : e.Chosen (fun _ => True) := by cases e <;> trivial

/-- The store's own run: its calls are the mutations in the order of the linearization, `P` being the one under way. -/
def Proj (codecs : ι → Codec) (Q : Ev ι → Prop) (s0 s : Inst ι) (L : List (Nat × Op × Res)) (P : List Mutation) : Prop :=
  ∃ es rs, Inst.run codecs s0 es = some (s, rs) ∧ calls es = L.filterMap mutOf ++ P ∧ rs.map resOf = L.filterMap mutRes ∧
    ∀ e ∈ es, EvOk Q e

theorem run_snoc {codecs : ι → Codec} (es : List (Ev ι)) (e : Ev ι) {s s' s'' : Inst ι} {rs : List (Out Unit)} {r : Option (Out Unit)}
    (h : Inst.run codecs s es = some (s', rs)) (hs : Inst.step codecs s' e = some (s'', r)) :
    Inst.run codecs s (es ++ [e]) = some (s'', rs ++ r.toList) := by
  induction es generalizing s rs with
  | nil =>
    simp only [Inst.run, Option.some.injEq, Prod.mk.injEq] at h
    obtain ⟨rfl, rfl⟩ := h
    simp [Inst.run, hs]
  | cons x es ih =>
    unfold Inst.run at h
    split at h
    · cases h
    · rename_i s1 r1 h1
      split at h
      · cases h
      · rename_i s2 rs2 h2
        simp only [Option.some.injEq, Prod.mk.injEq] at h
        obtain ⟨rfl, rfl⟩ := h
        simp [Inst.run, h1, ih h2]

theorem call?_evOf (m : Mutation) : (evOf m : Ev ι).call? = some m := by cases m <;> rfl

/-- Invariant of a run: `L` linearizes the history `h` so far, ending in `σ`. -/
structure TInv (codecs : ι → Codec) (Q : Ev ι → Prop) (s0 : Inst ι) (init : Object) (s : Threads ι) (h : List (HEv Op Res)) (L : List (Nat × Op × Res))
    (σ : Object) : Prop where
  lin : Linearization Behaves init h L σ
  live : s.inst.Live
  kept : Inst.Kept codecs s.inst
  wait : ∀ t op, s.th t = .waiting op ∨ s.th t = .inside op → ∃ pos, Pending h t pos op ∧ pos ∉ L.map (·.1)
  done : ∀ t r, s.th t = .done r → ∃ pos op, Pending h t pos op ∧ (pos, op, r) ∈ L
  known : ∀ x ∈ L, (∃ j, Returned h x.1 j x.2.1 x.2.2) ∨ ∃ t, s.th t = .done x.2.2 ∧ Pending h t x.1 x.2.1
  free : s.owner = none → s.inst.phase = .idle ∧ Rel σ s.inst ∧ Proj codecs Q s0 s.inst L []
  held : ∀ t, s.owner = some t → s.readers = [] ∧ ∃ m, s.th t = .inside (.mut m) ∧ Mid m σ s.inst ∧ Proj codecs Q s0 s.inst L [m]
  ins : ∀ t m, s.th t = .inside (.mut m) → s.owner = some t
  rd : ∀ t k tok, s.th t = .inside (.get k tok) → t ∈ s.readers

theorem tinv_start {codecs : ι → Codec} (Q : Ev ι → Prop) {i : ι} {page : Nat} {file : Bytes} {u : Nat} {q : Option Nat} {s0 : Inst ι}
    (h : openAt codecs i page file u q = some s0) :
    TInv codecs Q s0 ⟨view s0.kv, false, false⟩ { inst := s0 } [] [] ⟨view s0.kv, false, false⟩ where
  lin := .nil _ _
  live := live_open h
  kept := Inst.kept_open h
  wait := by intro t op h; rcases h with h | h <;> cases h
  done := by intro t r h; cases h
  known := by simp
  free := fun _ => ⟨(rel_open h).2, (rel_open h).1, [], [], rfl, rfl, rfl, by simp⟩
  held := by intro t h; cases h
  ins := by intro t m h; cases h
  rd := by intro t k tok h; cases h

theorem goto_self (s : Threads ι) (t : Nat) (x : TSt) : (s.goto t x).th t = x := by simp [goto]
theorem goto_other (s : Threads ι) {t u : Nat} (x : TSt) (h : u ≠ t) : (s.goto t x).th u = s.th u := by simp [goto, h]

/-- What happens when thread `t`, whose call `op` takes effect now, goes to `done`. -/
theorem tinv_point {codecs : ι → Codec} {Q : Ev ι → Prop} {s0 : Inst ι} {init : Object} {s : Threads ι} {h : List (HEv Op Res)}
    {L : List (Nat × Op × Res)} {σ σ' : Object} {t : Nat} {op : Op} {r : Res} (hi : TInv codecs Q s0 init s h L σ)
    (ht : s.th t = .waiting op ∨ s.th t = .inside op) (hb : Behaves σ op r σ') :
    ∃ pos, Pending h t pos op ∧ Linearization Behaves init h (L ++ [(pos, op, r)]) σ' ∧
      (∀ u op', (s.goto t (.done r)).th u = .waiting op' ∨ (s.goto t (.done r)).th u = .inside op' →
        ∃ p, Pending h u p op' ∧ p ∉ (L ++ [(pos, op, r)]).map (·.1)) ∧
      (∀ u r', (s.goto t (.done r)).th u = .done r' → ∃ p op', Pending h u p op' ∧ (p, op', r') ∈ L ++ [(pos, op, r)]) ∧
      (∀ x ∈ L ++ [(pos, op, r)], (∃ j, Returned h x.1 j x.2.1 x.2.2) ∨
        ∃ u, (s.goto t (.done r)).th u = .done x.2.2 ∧ Pending h u x.1 x.2.1) := by
  obtain ⟨pos, hp, hn⟩ := hi.wait t op ht
  refine ⟨pos, hp, hi.lin.point hp hn hb, ?_, ?_, ?_⟩
  · intro u op' hu
    by_cases hut : u = t
    · subst hut; simp [goto_self] at hu
    · rw [goto_other _ _ hut] at hu
      obtain ⟨p, hp', hn'⟩ := hi.wait u op' hu
      refine ⟨p, hp', ?_⟩
      simp only [List.map_append, List.map_cons, List.map_nil, List.mem_append, List.mem_singleton, not_or]
      refine ⟨hn', ?_⟩
      rintro rfl
      have := hp.1.symm.trans hp'.1
      injection this with this; injection this with this _
      exact hut this.symm
  · intro u r' hu
    by_cases hut : u = t
    · subst hut
      rw [goto_self] at hu
      injection hu with hu; subst hu
      exact ⟨pos, op, hp, by simp⟩
    · rw [goto_other _ _ hut] at hu
      obtain ⟨p, op', hp', hm⟩ := hi.done u r' hu
      exact ⟨p, op', hp', List.mem_append_left _ hm⟩
  · intro x hx
    rcases List.mem_append.1 hx with hx | hx
    · rcases hi.known x hx with hj | ⟨u, hu, hpu⟩
      · exact .inl hj
      · refine .inr ⟨u, ?_, hpu⟩
        rw [goto_other _ _ ?_]
        · exact hu
        · rintro rfl
          rcases ht with ht | ht <;> (rw [ht] at hu; cases hu)
    · simp only [List.mem_singleton] at hx
      subst hx
      exact .inr ⟨t, goto_self _ _ _, hp⟩

theorem filterMap_snoc {α β : Type} (f : α → Option β) (l : List α) (x : α) :
    (l ++ [x]).filterMap f = l.filterMap f ++ (f x).toList := by
  rw [List.filterMap_append]
  simp only [List.filterMap_cons, List.filterMap_nil]
  cases f x <;> rfl

theorem proj_get {codecs : ι → Codec} {Q : Ev ι → Prop} {s0 s : Inst ι} {L : List (Nat × Op × Res)} {P : List Mutation} (h : Proj codecs Q s0 s L P)
    (pos : Nat) (k : String) (t : BitVec 32) (r : Res) : Proj codecs Q s0 s (L ++ [(pos, .get k t, r)]) P := by
  obtain ⟨es, rs, h1, h2, h3, h4⟩ := h
  exact ⟨es, rs, h1, by rw [filterMap_snoc, h2]; simp [mutOf], by rw [filterMap_snoc, h3]; simp [mutRes], h4⟩

theorem proj_quiet {codecs : ι → Codec} {Q : Ev ι → Prop} {s0 s s' : Inst ι} {L : List (Nat × Op × Res)} {P : List Mutation} (h : Proj codecs Q s0 s L P)
    {e : Ev ι} (hs : Inst.step codecs s e = some (s', none)) (hc : e.call? = none) (hd : EvOk Q e) :
    Proj codecs Q s0 s' L P := by
  obtain ⟨es, rs, h1, h2, h3, h4⟩ := h
  refine ⟨es ++ [e], _, run_snoc es e h1 hs, ?_, by simpa using h3, ?_⟩
  · rw [calls_append, h2, calls_cons, hc]; simp [calls]
  · intro x hx
    rcases List.mem_append.1 hx with hx | hx
    · exact h4 x hx
    · simp only [List.mem_singleton] at hx; subst hx; exact hd

theorem proj_begin {codecs : ι → Codec} {Q : Ev ι → Prop} {s0 s s' : Inst ι} {L : List (Nat × Op × Res)} (h : Proj codecs Q s0 s L [])
    {m : Mutation} (hs : Inst.step codecs s (evOf m) = some (s', none)) : Proj codecs Q s0 s' L [m] := by
  obtain ⟨es, rs, h1, h2, h3, h4⟩ := h
  refine ⟨es ++ [evOf m], _, run_snoc es _ h1 hs, ?_, by simpa using h3, ?_⟩
  · rw [calls_append, h2, calls_cons, call?_evOf]; simp [calls]
  · intro x hx
    rcases List.mem_append.1 hx with hx | hx
    · exact h4 x hx
    · simp only [List.mem_singleton] at hx; subst hx; cases m <;> trivial

theorem proj_whole {codecs : ι → Codec} {Q : Ev ι → Prop} {s0 s s' : Inst ι} {L : List (Nat × Op × Res)} (h : Proj codecs Q s0 s L [])
    {m : Mutation} {x : Out Unit} (hs : Inst.step codecs s (evOf m) = some (s', some x)) (pos : Nat) :
    Proj codecs Q s0 s' (L ++ [(pos, .mut m, resOf x)]) [] := by
  obtain ⟨es, rs, h1, h2, h3, h4⟩ := h
  refine ⟨es ++ [evOf m], _, run_snoc es _ h1 hs, ?_, ?_, ?_⟩
  · rw [calls_append, h2, calls_cons, call?_evOf, filterMap_snoc]; simp [calls, mutOf]
  · rw [filterMap_snoc, List.map_append, h3]; simp [mutRes]
  · intro y hx
    rcases List.mem_append.1 hx with hx | hx
    · exact h4 y hx
    · simp only [List.mem_singleton] at hx; subst hx; cases m <;> trivial

theorem proj_end {codecs : ι → Codec} {Q : Ev ι → Prop} {s0 s s' : Inst ι} {L : List (Nat × Op × Res)} {m : Mutation} (h : Proj codecs Q s0 s L [m])
    {i : ι} {x : Out Unit} (hs : Inst.step codecs s (.api i) = some (s', some x)) (hQ : Q (.api i)) (pos : Nat) :
    Proj codecs Q s0 s' (L ++ [(pos, .mut m, resOf x)]) [] := by
  obtain ⟨es, rs, h1, h2, h3, h4⟩ := h
  refine ⟨es ++ [.api i], _, run_snoc es _ h1 hs, ?_, ?_, ?_⟩
  · rw [calls_append, h2, calls_cons, filterMap_snoc]; simp [calls, mutOf, Ev.call?]
  · rw [filterMap_snoc, List.map_append, h3]; simp [mutRes]
  · intro y hx
    rcases List.mem_append.1 hx with hx | hx
    · exact h4 y hx
    · simp only [List.mem_singleton] at hx; subst hx; exact hQ

theorem get_behaves {σ : Object} {s : Inst ι} (hl : s.Live) (hr : Rel σ s) (k : String) (t : BitVec 32) :
    Behaves σ (.get k t) (s.getAs k t fun bs => .ok (some bs)) σ := by
  obtain ⟨h1, h2⟩ := hr
  cases hp : s.poisoned with
  | true =>
    simp only [getAs, hp, if_true]
    exact .locked (h1.trans hp)
  | false =>
    obtain ⟨h3, h4⟩ := h2 hp
    cases hv : s.valid with
    | false =>
      simp only [getAs, hp, hv, Bool.false_eq_true, if_false, if_true]
      exact .shut (h1.trans hp) (by rw [h3, hv]; rfl) (by simp)
    | true =>
      rw [(shows_iff hp hv hl).2 rfl (Option Bytes) k t, ← h4 hv]
      exact .get ⟨h1.trans hp, by rw [h3, hv]; rfl⟩


theorem tinv_step {codecs : ι → Codec} {Q : Ev ι → Prop} {s0 : Inst ι} {init : Object} {s s' : Threads ι} {h : List (HEv Op Res)}
    {L : List (Nat × Op × Res)} {σ : Object} {e : TEv ι} {v : Option (HEv Op Res)} (hi : TInv codecs Q s0 init s h L σ)
    (hQ : e.Chosen Q) (hs : step codecs s e = some (s', v)) : ∃ L' σ', TInv codecs Q s0 init s' (h ++ v.toList) L' σ' := by
  cases e with
  | call t op =>
    simp only [step] at hs
    split at hs
    · rename_i hc
      injection hs with hs; injection hs with h1 h2; subst h1 h2
      refine ⟨L, σ, hi.lin.inv t op, hi.live, hi.kept, ?_, ?_, ?_, hi.free, ?_, ?_, ?_⟩
      · intro u op' hu
        by_cases hut : u = t
        · subst hut
          rw [goto_self] at hu
          have hop : op' = op := by
            rcases hu with hu | hu
            · injection hu with hu; exact hu.symm
            · cases hu
          subst hop
          refine ⟨h.length, pending_new h u op', ?_⟩
          intro hm
          obtain ⟨x, hx, hx1⟩ := List.mem_map.1 hm
          have := hi.lin.lt_length hx
          omega
        · rw [goto_other _ _ hut] at hu
          obtain ⟨p, hp, hn⟩ := hi.wait u op' hu
          exact ⟨p, pending_snoc hp (fun h => hut h.symm), hn⟩
      · intro u r hu
        by_cases hut : u = t
        · subst hut; rw [goto_self] at hu; cases hu
        · rw [goto_other _ _ hut] at hu
          obtain ⟨p, op', hp, hm⟩ := hi.done u r hu
          exact ⟨p, op', pending_snoc hp (fun h => hut h.symm), hm⟩
      · intro x hx
        rcases hi.known x hx with ⟨j, hj⟩ | ⟨u, hu, hpu⟩
        · exact .inl ⟨j, returned_mono hj⟩
        · have hut : u ≠ t := by rintro rfl; rw [hc.1] at hu; cases hu
          exact .inr ⟨u, by rw [goto_other _ _ hut]; exact hu, pending_snoc hpu (fun h => hut h.symm)⟩
      · intro u hu
        obtain ⟨g1, m, g2, g3⟩ := hi.held u hu
        have hut : u ≠ t := by rintro rfl; rw [hc.1] at g2; cases g2
        exact ⟨g1, m, by rw [goto_other _ _ hut]; exact g2, g3⟩
      · intro u m hu
        by_cases hut : u = t
        · subst hut; rw [goto_self] at hu; cases hu
        · rw [goto_other _ _ hut] at hu; exact hi.ins u m hu
      · intro u k tok hu
        by_cases hut : u = t
        · subst hut; rw [goto_self] at hu; cases hu
        · rw [goto_other _ _ hut] at hu; exact hi.rd u k tok hu
    · cases hs
  | lock t =>
    simp only [step] at hs
    split at hs
    · -- a reader
      rename_i k tok hth
      split at hs
      · rename_i how
        injection hs with hs; injection hs with h1 h2; subst h1 h2
        simp only [Option.toList, List.append_nil]
        refine ⟨L, σ, hi.lin, hi.live, hi.kept, ?_, ?_, ?_, hi.free, ?_, ?_, ?_⟩
        · intro u op' hu
          by_cases hut : u = t
          · subst hut
            have hop : op' = .get k tok := by
              rcases hu with hu | hu
              · simp [goto] at hu
              · simp [goto] at hu; exact hu.symm
            subst hop
            exact hi.wait u _ (.inl hth)
          · exact hi.wait u op' (by simpa [goto, hut] using hu)
        · intro u r hu
          by_cases hut : u = t
          · subst hut; simp [goto] at hu
          · exact hi.done u r (by simpa [goto, hut] using hu)
        · intro x hx
          rcases hi.known x hx with hj | ⟨u, hu, hpu⟩
          · exact .inl hj
          · have hut : u ≠ t := by rintro rfl; rw [hth] at hu; cases hu
            exact .inr ⟨u, by simpa [goto, hut] using hu, hpu⟩
        · intro u hu
          have hu : s.owner = some u := hu
          rw [how] at hu; cases hu
        · intro u m hu
          by_cases hut : u = t
          · subst hut; simp [goto] at hu
          · exact hi.ins u m (by simpa [goto, hut] using hu)
        · intro u k' tok' hu
          by_cases hut : u = t
          · subst hut; simp
          · exact List.mem_cons_of_mem _ (hi.rd u k' tok' (by simpa [goto, hut] using hu))
      · cases hs
    · -- a writer
      rename_i m hth
      split at hs
      · rename_i how
        obtain ⟨how, hrd⟩ := how
        obtain ⟨hph, hrel, hproj⟩ := hi.free how
        split at hs
        · cases hs
        · rename_i x hst
          injection hs with hs; injection hs with h1 h2; subst h1 h2
          simp only [Option.toList, List.append_nil]
          rcases begin_step hi.kept hph hrel hst with ⟨_, hmid⟩ | ⟨_, _, hx, _⟩
          · refine ⟨L, σ, hi.lin, live_step hi.live hst, Inst.kept_step hi.kept hst, ?_, ?_, ?_, ?_, ?_, ?_, ?_⟩
            · intro u op' hu
              by_cases hut : u = t
              · subst hut
                have hop : op' = .mut m := by
                  rcases hu with hu | hu
                  · simp [goto] at hu
                  · simp [goto] at hu; exact hu.symm
                subst hop
                exact hi.wait u _ (.inl hth)
              · exact hi.wait u op' (by simpa [goto, hut] using hu)
            · intro u r hu
              by_cases hut : u = t
              · subst hut; simp [goto] at hu
              · exact hi.done u r (by simpa [goto, hut] using hu)
            · intro y hx
              rcases hi.known y hx with hj | ⟨u, hu, hpu⟩
              · exact .inl hj
              · have hut : u ≠ t := by rintro rfl; rw [hth] at hu; cases hu
                exact .inr ⟨u, by simpa [goto, hut] using hu, hpu⟩
            · intro hu; cases hu
            · intro u hu
              injection hu with hu; subst hu
              exact ⟨hrd, m, by simp [goto], hmid, proj_begin hproj hst⟩
            · intro u m' hu
              by_cases hut : u = t
              · subst hut; rfl
              · have := hi.ins u m' (by simpa [goto, hut] using hu)
                rw [how] at this; cases this
            · intro u k' tok' hu
              by_cases hut : u = t
              · subst hut; simp [goto] at hu
              · exact hi.rd u k' tok' (by simpa [goto, hut] using hu)
          · cases hx
        · rename_i x r hst
          injection hs with hs; injection hs with h1 h2; subst h1 h2
          simp only [Option.toList, List.append_nil]
          rcases begin_step hi.kept hph hrel hst with ⟨hx, _⟩ | ⟨y, σ', hx, hb, hrel', hph'⟩
          · cases hx
          · injection hx with hx; subst hx
            obtain ⟨pos, hp, hl, hw, hd, hkn⟩ := tinv_point hi (.inl hth) hb
            refine ⟨_, σ', hl, live_step hi.live hst, Inst.kept_step hi.kept hst, hw, hd, hkn, ?_, ?_, ?_, ?_⟩
            · intro _
              exact ⟨hph', hrel', proj_whole hproj hst pos⟩
            · intro u hu
              have hu : s.owner = some u := hu
              rw [how] at hu; cases hu
            · intro u m' hu
              by_cases hut : u = t
              · subst hut; simp [goto] at hu
              · exact hi.ins u m' (by simpa [goto, hut] using hu)
            · intro u k' tok' hu
              by_cases hut : u = t
              · subst hut; simp [goto] at hu
              · exact hi.rd u k' tok' (by simpa [goto, hut] using hu)
      · cases hs
    · cases hs
  | work t i =>
    simp only [step] at hs
    split at hs
    · rename_i k tok hth
      injection hs with hs; injection hs with h1 h2; subst h1 h2
      simp only [Option.toList, List.append_nil]
      have hmem := hi.rd t k tok hth
      have how : s.owner = none := by
        cases ho : s.owner with
        | none => rfl
        | some u => rw [(hi.held u ho).1] at hmem; simp at hmem
      obtain ⟨hph, hrel, hproj⟩ := hi.free how
      obtain ⟨pos, hp, hl, hw, hd, hkn⟩ := tinv_point hi (.inr hth) (get_behaves hi.live hrel k tok)
      refine ⟨_, σ, hl, hi.live, hi.kept, hw, hd, hkn, fun _ => ⟨hph, hrel, proj_get hproj pos k tok _⟩, ?_, ?_, ?_⟩
      · intro u hu
        have hu : s.owner = some u := hu
        rw [how] at hu; cases hu
      · intro u m' hu
        by_cases hut : u = t
        · subst hut; simp [goto] at hu
        · exact hi.ins u m' (by simpa [goto, hut] using hu)
      · intro u k' tok' hu
        by_cases hut : u = t
        · subst hut; simp [goto] at hu
        · exact (List.mem_erase_of_ne hut).2 (hi.rd u k' tok' (by simpa [goto, hut] using hu))
    · rename_i m hth
      have how := hi.ins t m hth
      obtain ⟨hrd, m', hth', hmid, hproj⟩ := hi.held t how
      rw [hth] at hth'
      injection hth' with hth'; injection hth' with hth'; subst hth'
      split at hs
      · cases hs
      · rename_i x hst
        injection hs with hs; injection hs with h1 h2; subst h1 h2
        simp only [Option.toList, List.append_nil]
        rcases work_step hi.kept hmid hst with ⟨_, hmid'⟩ | ⟨_, _, hx, _⟩
        · refine ⟨L, σ, hi.lin, live_step hi.live hst, Inst.kept_step hi.kept hst, hi.wait, hi.done, hi.known, ?_, ?_, hi.ins, hi.rd⟩
          · intro hu
            have hu : s.owner = none := hu
            rw [how] at hu; cases hu
          · intro u hu
            have hu : s.owner = some u := hu
            rw [how] at hu; injection hu with hu; subst hu
            exact ⟨hrd, m, hth, hmid', proj_quiet hproj hst rfl hQ⟩
        · cases hx
      · rename_i x r hst
        injection hs with hs; injection hs with h1 h2; subst h1 h2
        simp only [Option.toList, List.append_nil]
        rcases work_step hi.kept hmid hst with ⟨hx, _⟩ | ⟨y, σ', hx, hb, hrel', hph'⟩
        · cases hx
        · injection hx with hx; subst hx
          obtain ⟨pos, hp, hl, hw, hd, hkn⟩ := tinv_point hi (.inr hth) hb
          refine ⟨_, σ', hl, live_step hi.live hst, Inst.kept_step hi.kept hst, hw, hd, hkn,
            fun _ => ⟨hph', hrel', proj_end hproj hst hQ pos⟩, ?_, ?_, ?_⟩
          · intro u hu; cases hu
          · intro u m' hu
            by_cases hut : u = t
            · subst hut; simp [goto] at hu
            · have := hi.ins u m' (by simpa [goto, hut] using hu)
              rw [how] at this; injection this with this
              exact absurd this.symm hut
          · intro u k' tok' hu
            by_cases hut : u = t
            · subst hut; simp [goto] at hu
            · exact hi.rd u k' tok' (by simpa [goto, hut] using hu)
    · cases hs
  | ret t =>
    simp only [step] at hs
    split at hs
    · rename_i r hth
      injection hs with hs; injection hs with h1 h2; subst h1 h2
      obtain ⟨pos, op, hp, hm⟩ := hi.done t r hth
      refine ⟨L, σ, hi.lin.res hp hm, hi.live, hi.kept, ?_, ?_, ?_, hi.free, ?_, ?_, ?_⟩
      · intro u op' hu
        by_cases hut : u = t
        · subst hut; rw [goto_self] at hu; simp at hu
        · rw [goto_other _ _ hut] at hu
          obtain ⟨p, hp, hn⟩ := hi.wait u op' hu
          exact ⟨p, pending_snoc hp (fun h => hut h.symm), hn⟩
      · intro u r' hu
        by_cases hut : u = t
        · subst hut; rw [goto_self] at hu; cases hu
        · rw [goto_other _ _ hut] at hu
          obtain ⟨p, op', hp, hm⟩ := hi.done u r' hu
          exact ⟨p, op', pending_snoc hp (fun h => hut h.symm), hm⟩
      · intro x hx
        rcases hi.known x hx with ⟨j, hj⟩ | ⟨u, hu, hpu⟩
        · exact .inl ⟨j, returned_mono hj⟩
        · by_cases hut : u = t
          · subst hut
            left
            rw [hth] at hu
            injection hu with hu
            refine ⟨h.length, u, ?_, by simp [hu], lt_of_getElem? hpu.1, ?_⟩
            · rw [List.getElem?_append_left (lt_of_getElem? hpu.1)]; exact hpu.1
            · intro k e hk hk' he
              rw [List.getElem?_append_left hk'] at he
              exact hpu.2 k e hk he
          · exact .inr ⟨u, by rw [goto_other _ _ hut]; exact hu, pending_snoc hpu (fun h => hut h.symm)⟩
      · intro u hu
        obtain ⟨g1, m, g2, g3⟩ := hi.held u hu
        have hut : u ≠ t := by rintro rfl; rw [hth] at g2; cases g2
        exact ⟨g1, m, by rw [goto_other _ _ hut]; exact g2, g3⟩
      · intro u m hu
        by_cases hut : u = t
        · subst hut; rw [goto_self] at hu; cases hu
        · rw [goto_other _ _ hut] at hu; exact hi.ins u m hu
      · intro u k tok hu
        by_cases hut : u = t
        · subst hut; rw [goto_self] at hu; cases hu
        · rw [goto_other _ _ hut] at hu; exact hi.rd u k tok hu
    · cases hs
  | io o =>
    simp only [step] at hs
    split at hs
    · cases hs
    · rename_i x r hst
      injection hs with hs; injection hs with h1 h2; subst h1 h2
      simp only [Option.toList, List.append_nil]
      obtain ⟨rfl, hph, _⟩ := io_keeps hst
      refine ⟨L, σ, hi.lin, live_step hi.live hst, Inst.kept_step hi.kept hst, hi.wait, hi.done, hi.known, ?_, ?_, hi.ins, hi.rd⟩
      · intro hu
        obtain ⟨g1, g2, g3⟩ := hi.free hu
        exact ⟨hph.trans g1, rel_io hst g2, proj_quiet g3 hst rfl hQ⟩
      · intro u hu
        obtain ⟨g1, m, g2, g3, g4⟩ := hi.held u hu
        exact ⟨g1, m, g2, mid_io hi.kept hst g3, proj_quiet g4 hst rfl hQ⟩

theorem tinv_run {codecs : ι → Codec} {Q : Ev ι → Prop} {s0 : Inst ι} {init : Object} (es : List (TEv ι)) {s s' : Threads ι} {h h' : List (HEv Op Res)}
    {L : List (Nat × Op × Res)} {σ : Object} (hi : TInv codecs Q s0 init s h L σ)
    (hQ : ∀ e ∈ es, e.Chosen Q) (hs : run codecs s es = some (s', h')) : ∃ L' σ', TInv codecs Q s0 init s' (h ++ h') L' σ' := by
  induction es generalizing s h h' L σ with
  | nil =>
    simp only [run, Option.some.injEq, Prod.mk.injEq] at hs
    obtain ⟨rfl, rfl⟩ := hs
    exact ⟨L, σ, by simpa using hi⟩
  | cons e es ih =>
    unfold run at hs
    split at hs
    · cases hs
    · rename_i s1 v h1
      split at hs
      · cases hs
      · rename_i s2 h2 hr
        simp only [Option.some.injEq, Prod.mk.injEq] at hs
        obtain ⟨rfl, rfl⟩ := hs
        obtain ⟨L1, σ1, hi1⟩ := tinv_step hi (hQ _ List.mem_cons_self) h1
        rw [← List.append_assoc]
        exact ih hi1 (fun x hx => hQ x (List.mem_cons_of_mem _ hx)) hr

end Threads
open Threads

theorem behaves_map {σ σ' : Object} {op : Op} {r : Res} (h : Behaves σ op r σ') (hl : σ.live) (hr : r.failed = false) :
    σ'.live ∧ MapBehaves σ.map op r σ'.map := by
  obtain ⟨hp, hc⟩ := hl
  cases h with
  | locked h => rw [hp] at h; cases h
  | shut _ h _ => rw [hc] at h; cases h
  | get h => exact ⟨⟨hp, hc⟩, rfl, rfl⟩
  | write h hm => exact ⟨⟨hp, hc⟩, rfl, rfl⟩
  | writeFailed => cases hr
  | clear => exact ⟨⟨rfl, rfl⟩, rfl, rfl⟩
  | clearFailed => cases hr
  | clearPanic => cases hr
  | reopen _ h => rw [hc] at h; cases h

theorem legal_map {σ σ' : Object} {l : List (Op × Res)} (h : Legal Behaves σ l σ') (hl : σ.live) (hr : ∀ x ∈ l, x.2.failed = false) :
    σ'.live ∧ Legal MapBehaves σ.map l σ'.map := by
  induction h with
  | nil => exact ⟨hl, .nil _⟩
  | cons h _ ih =>
    obtain ⟨h1, h2⟩ := behaves_map h hl (hr _ List.mem_cons_self)
    obtain ⟨h3, h4⟩ := ih h1 (fun x hx => hr x (List.mem_cons_of_mem _ hx))
    exact ⟨h3, .cons h2 h4⟩

theorem legal_final {S S' : Store} {L : List (Nat × Op × Res)} (h : Legal MapBehaves S (L.map (·.2)) S') :
    S' = S.run (L.filterMap mutOf) := by
  induction L generalizing S with
  | nil => cases h; rfl
  | cons x L ih =>
    obtain ⟨p, op, r⟩ := x
    rw [List.map_cons] at h
    cases h with
    | cons h1 h2 =>
      rw [ih h2]
      cases op with
      | «mut» m => rw [h1.2]; rfl
      | get k t => rw [h1.2]; rfl

/-- **C70.**  Open any directory whose file opens, and let any number of threads make any calls in any schedule, with anything
failing.  The history of calls and results they observe is linearizable: there is one order of the calls, agreeing with real
time, in which the results are those of a sequential object (`Behaves`): a plain map, with the ways a call can fail. -/
theorem C70_linearizable {codecs : ι → Codec} {i : ι} {page : Nat} {file : Bytes} {u : Nat} {q : Option Nat} {s0 : Inst ι} {S0 : Store}
    {s : Threads ι} {es : List (TEv ι)} {h : List (HEv Op Res)} (hopen : openAt codecs i page file u q = some s0)
    (h0 : s0.Shows S0) (hrun : Threads.run codecs { inst := s0 } es = some (s, h)) :
    Linearizable Behaves { map := S0 } h := by
  obtain ⟨L, σ, hi⟩ := tinv_run es (tinv_start (fun _ => True) hopen) (fun e _ => e.chosen_true) hrun
  rw [(shows_open hopen).1 h0] at hi
  exact ⟨L, σ, hi.lin⟩

/-- No call of the history has failed, neither one that has returned nor one that is about to return. -/
def NoFailure (s : Threads ι) (h : List (HEv Op Res)) : Prop :=
  (∀ t r, .res t r ∈ h → r.failed = false) ∧ ∀ t r, s.th t = .done r → r.failed = false

theorem tinv_map {codecs : ι → Codec} {Q : Ev ι → Prop} {s0 : Inst ι} {S0 : Store} {s : Threads ι} {h : List (HEv Op Res)}
    {L : List (Nat × Op × Res)} {σ : Object} (hi : TInv codecs Q s0 ⟨S0, false, false⟩ s h L σ) (hok : NoFailure s h) :
    σ.live ∧ Linearization MapBehaves S0 h L σ.map ∧ ∀ x ∈ L, x.2.2.failed = false := by
  have hL : ∀ x ∈ L, x.2.2.failed = false := by
    intro x hx
    rcases hi.known x hx with ⟨j, t, _, h2, _⟩ | ⟨t, ht, _⟩
    · exact hok.1 t _ (List.mem_of_getElem? h2)
    · exact hok.2 t _ ht
  obtain ⟨h1, h2⟩ := legal_map hi.lin.legal ⟨rfl, rfl⟩ (by
    intro y hy
    obtain ⟨x, hx, rfl⟩ := List.mem_map.1 hy
    exact hL x hx)
  exact ⟨h1, ⟨hi.lin.distinct, hi.lin.invoked, hi.lin.complete, h2, hi.lin.order⟩, hL⟩

/-- **C70** while nothing fails: the sequential object is a plain map.  Moreover, when no call holds the write lock, the store
shows the map at the end of that order. -/
theorem C70_linearizable_map {codecs : ι → Codec} {i : ι} {page : Nat} {file : Bytes} {u : Nat} {q : Option Nat} {s0 : Inst ι}
    {S0 : Store} {s : Threads ι} {es : List (TEv ι)} {h : List (HEv Op Res)} (hopen : openAt codecs i page file u q = some s0)
    (h0 : s0.Shows S0) (hrun : Threads.run codecs { inst := s0 } es = some (s, h)) (hok : NoFailure s h) :
    ∃ L last, Linearization MapBehaves S0 h L last ∧ (s.owner = none → s.inst.Shows last) := by
  obtain ⟨L, σ, hi⟩ := tinv_run es (tinv_start (fun _ => True) hopen) (fun e _ => e.chosen_true) hrun
  rw [(shows_open hopen).1 h0] at hi
  simp only [List.nil_append] at hi
  obtain ⟨h1, h2, _⟩ := tinv_map hi hok
  refine ⟨L, σ.map, h2, fun ho => ?_⟩
  obtain ⟨_, ⟨g1, g2⟩, _⟩ := hi.free ho
  have hp : s.inst.poisoned = false := g1.symm.trans h1.1
  obtain ⟨g3, g4⟩ := g2 hp
  have hv : s.inst.valid = true := by rw [h1.2] at g3; simpa using g3
  exact (shows_iff hp hv hi.live).2 (g4 hv).symm

/-- **C70**, the file: the background thread gets the mutations in the very order of the linearization.  So what the other
theorems say of a history of calls on one store holds of threads: `Inst.run` is a run whose calls are the mutations of the
linearization, in its order, with their results. -/
theorem C70_order_of_the_file {codecs : ι → Codec} {i : ι} {page : Nat} {file : Bytes} {u : Nat} {q : Option Nat} {s0 : Inst ι}
    {S0 : Store} {s : Threads ι} {es : List (TEv ι)} {h : List (HEv Op Res)} (hopen : openAt codecs i page file u q = some s0)
    (h0 : s0.Shows S0) (hrun : Threads.run codecs { inst := s0 } es = some (s, h)) (hfree : s.owner = none) :
    ∃ L last es' rs, Linearization Behaves { map := S0 } h L last ∧ Inst.run codecs s0 es' = some (s.inst, rs) ∧
      calls es' = L.filterMap mutOf ∧ rs.map resOf = L.filterMap mutRes := by
  obtain ⟨L, σ, hi⟩ := tinv_run es (tinv_start (fun _ => True) hopen) (fun e _ => e.chosen_true) hrun
  rw [(shows_open hopen).1 h0] at hi
  obtain ⟨_, _, es', rs, g1, g2, g3, _⟩ := hi.free hfree
  exact ⟨L, σ, es', rs, hi.lin, g1, by simpa using g2, g3⟩

/-- Bytes of the record a call makes, in the plain file. -/
def opBytes : Op → Nat
  | .mut (.put k e) => recordSize k e.token e.bytes
  | .mut (.delete k) => recordSize k deletedToken []
  | _ => 0

theorem evs_bytes (es : List (Ev ι)) : (es.map Ev.recordBytes).sum = ((calls es).map fun m => opBytes (.mut m)).sum := by
  induction es with
  | nil => rfl
  | cons e es ih =>
    rw [calls_cons]
    simp only [List.map_cons, List.sum_cons, List.map_append, List.sum_append, ih]
    congr 1
    cases e <;> simp [Ev.call?, Ev.recordBytes, opBytes]

theorem nodup_lt_length {n : Nat} {l : List Nat} (hd : l.Nodup) (hl : ∀ x ∈ l, x < n) : l.length ≤ n := by
  induction n generalizing l with
  | zero =>
    cases l with
    | nil => simp
    | cons x l => exact absurd (hl x List.mem_cons_self) (by omega)
  | succ n ih =>
    have h1 := ih (l := l.erase n) (hd.erase n) (by
      intro x hx
      have h2 := hl x (List.mem_of_mem_erase hx)
      have h3 : x ≠ n := fun he => by
        subst he
        exact (List.Nodup.mem_erase_iff hd).1 hx |>.1 rfl
      omega)
    have h4 : l.length ≤ (l.erase n).length + 1 := by
      rw [List.length_erase]
      split <;> omega
    omega

theorem legal_ok {S S' : Store} {l : List (Op × Res)} (h : Legal MapBehaves S l S') {m : Mutation} {r : Res}
    (hm : (Op.mut m, r) ∈ l) : r = .ok none := by
  induction l generalizing S with
  | nil => simp at hm
  | cons y l ih =>
    cases h with
    | cons hstep hrest =>
      rcases List.mem_cons.1 hm with heq | hm
      · injection heq with e1 e2
        subst e1 e2
        exact hstep.1
      · exact ih hrest hm

theorem sum_le_mul {α : Type} {f : α → Nat} (l : List α) (B : Nat) (h : ∀ x ∈ l, f x ≤ B) : (l.map f).sum ≤ B * l.length := by
  induction l with
  | nil => simp
  | cons x l ih =>
    have h1 := h x List.mem_cons_self
    have h2 := ih (fun y hy => h y (List.mem_cons_of_mem _ hy))
    simp only [List.map_cons, List.sum_cons, List.length_cons, Nat.mul_succ]
    omega

/-- **C70 and C68 together**: any number of threads work on a fresh directory, records of any size below 4 GiB.  When all calls have
returned, none with a failure, and the close of the last handle has returned, opening the directory again (with any page size)
shows the map at the end of a linearization of what the threads observed. -/
theorem C70_saved {page : Nat} (h8 : 8 ≤ page) {s0 : Inst Unit} {s : Threads Unit} {es : List (TEv Unit)} {h : List (HEv Op Res)}
    (hopen : openAt plain () page [] = some s0) (hrun : Threads.run plain { inst := s0 } es = some (s, h))
    (hord : ∀ o, TEv.io o ∈ es → ∀ l, (o l).Perm l) (hback : ∀ t, s.th t = .idle)
    (hok : ∀ t r, .res t r ∈ h → r.failed = false)
    {ios : List Order} (hord' : ∀ o ∈ ios, ∀ l, (o l).Perm l) {s' : Inst Unit}
    (hclose : Inst.run plain s.inst (.drop :: ios.map .io) = some (s', [])) (hclosed : s'.closedOk)
    {B : Nat} (hB : ∀ t op, .inv t op ∈ h → opBytes op ≤ B) (hB32 : B < 2 ^ 32 - 1) (hroom : B * h.length + 8 < 2 ^ 64)
    {page' : Nat} (h8' : 8 ≤ page') :
    ∃ L last s'', Linearization MapBehaves Store.empty h L last ∧ openAt plain () page' s'.disk = some s'' ∧ s''.Shows last := by
  obtain ⟨L, σ, hi⟩ := tinv_run es (tinv_start (fun e => ∀ o, e = .io o → ∀ l, (o l).Perm l) hopen) (by
    intro e he
    cases e with
    | io o => intro o' ho; cases ho; exact hord o he
    | work t i => intro o ho; cases ho
    | _ => trivial) hrun
  rw [(shows_open hopen).1 (openAt_nil_shows hopen).1] at hi
  simp only [List.nil_append] at hi
  obtain ⟨h1, h2, h3⟩ := tinv_map hi ⟨hok, fun t r ht => by rw [hback t] at ht; cases ht⟩
  have hfree : s.owner = none := by
    cases ho : s.owner with
    | none => rfl
    | some t =>
      obtain ⟨_, m, hm, _⟩ := hi.held t ho
      rw [hback t] at hm; cases hm
  obtain ⟨_, _, es', rs, g1, g2, g3, g4⟩ := hi.free hfree
  simp only [List.append_nil] at g2
  -- the whole session of the store
  have hrun' : ∀ (a b : List (Ev Unit)) {x y z : Inst Unit} {r1 r2}, Inst.run plain x a = some (y, r1) → Inst.run plain y b = some (z, r2) →
      Inst.run plain x (a ++ b) = some (z, r1 ++ r2) := by
    intro a
    induction a with
    | nil =>
      intro b x y z r1 r2 ha hb
      simp only [Inst.run, Option.some.injEq, Prod.mk.injEq] at ha
      obtain ⟨rfl, rfl⟩ := ha
      simpa using hb
    | cons e a ih =>
      intro b x y z r1 r2 ha hb
      unfold Inst.run at ha
      split at ha
      · cases ha
      · rename_i x1 v hx1
        split at ha
        · cases ha
        · rename_i x2 v2 hx2
          simp only [Option.some.injEq, Prod.mk.injEq] at ha
          obtain ⟨rfl, rfl⟩ := ha
          simp [Inst.run, hx1, ih b hx2 hb]
  have hall := hrun' es' _ g1 hclose
  have hrs : ∀ r ∈ rs ++ [], r = .ok () := by
    intro r hr
    rw [List.append_nil] at hr
    have hm : resOf r ∈ rs.map resOf := List.mem_map_of_mem hr
    rw [g3, List.mem_filterMap] at hm
    obtain ⟨x, hx, hxr⟩ := hm
    have hf := h3 x hx
    obtain ⟨p, op, r'⟩ := x
    cases op with
    | get k t => simp [mutRes] at hxr
    | «mut» m =>
      simp only [mutRes, Option.some.injEq] at hxr
      subst hxr
      have := legal_ok h2.legal (List.mem_map.2 ⟨_, hx, rfl⟩)
      cases r with
      | ok u => rfl
      | panic => cases this
      | err e => cases this
  have hlen : (L.filterMap mutOf).length ≤ h.length := by
    refine Nat.le_trans (List.length_filterMap_le _ _) ?_
    have := nodup_lt_length (n := h.length) h2.distinct (by
      intro p hp
      obtain ⟨x, hx, rfl⟩ := List.mem_map.1 hp
      exact h2.lt_length hx)
    simpa using this
  have hbytes : ∀ m ∈ L.filterMap mutOf, opBytes (.mut m) ≤ B := by
    intro m hm
    obtain ⟨⟨p, op, r⟩, hx, hxm⟩ := List.mem_filterMap.1 hm
    obtain ⟨t, ht⟩ := h2.invoked _ hx
    cases op with
    | get k t => simp [mutOf] at hxm
    | «mut» m' =>
      simp only [mutOf, Option.some.injEq] at hxm
      subst hxm
      exact hB t _ (List.mem_of_getElem? ht)
  have hcalls : calls (es' ++ Ev.drop :: ios.map Ev.io) = L.filterMap mutOf := by
    rw [calls_append, g2, calls_cons]
    have : calls (ios.map (Ev.io (ι := Unit))) = [] := by
      clear hord' hclose hall
      induction ios with
      | nil => rfl
      | cons o ios ih => rw [List.map_cons, calls_cons, ih]; rfl
    rw [this]
    simp [Ev.call?]
  have hlife : Life plain page Dir.fresh [⟨(), es' ++ Ev.drop :: ios.map Ev.io, true⟩] [rs ++ []] s'.dir :=
    .cons (by simp [Dir.fresh]) hopen hall (fun _ => hclosed) (.nil _)
  have hsum : ((es' ++ Ev.drop :: ios.map Ev.io).map Ev.recordBytes).sum ≤ B * h.length := by
    rw [evs_bytes, hcalls]
    refine Nat.le_trans (sum_le_mul _ B ?_) (Nat.mul_le_mul_left _ hlen)
    exact hbytes
  obtain ⟨s'', ho, hsh⟩ := C68_clean_close_saves h8 hlife (by simpa using hrs) (by simp) (by
    intro x hx e he
    simp only [List.mem_singleton] at hx
    subst hx
    have hcall : ∀ m, e.call? = some m → opBytes (.mut m) ≤ B := by
      intro m hm
      refine hbytes m ?_
      rw [← hcalls]
      exact List.mem_filterMap.2 ⟨e, he, hm⟩
    cases e with
    | put k t bs => have := hcall _ rfl; simp only [opBytes] at this; simp only [Ev.Fits]; omega
    | delete k => have := hcall _ rfl; simp only [opBytes] at this; simp only [Ev.Fits]; omega
    | io o =>
      simp only [Ev.Fits]
      rcases List.mem_append.1 he with he | he
      · exact g4 _ he o rfl
      · simp only [List.mem_cons, reduceCtorEq, List.mem_map, Ev.io.injEq, exists_eq_right, false_or] at he
        exact hord' o he
    | clear => trivial
    | api i => trivial
    | drop => trivial) (by simp only [recordBytesOf, List.map_cons, List.map_nil, List.sum_cons, List.sum_nil]; omega) h8'
  refine ⟨L, σ.map, s'', h2, ho, ?_⟩
  rw [legal_final h2.legal]
  simpa [hcalls] using hsh

/-! ### A concrete schedule -/

theorem idle_step {codecs : ι → Codec} {s s' : Threads ι} {e : TEv ι} {v : Option (HEv Op Res)} {t : Nat}
    (hs : Threads.step codecs s e = some (s', v)) (ht : s.th t = .idle) (he : ∀ op, e ≠ .call t op) : s'.th t = .idle := by
  cases e with
  | call u op =>
    have hut : t ≠ u := by rintro rfl; exact he op rfl
    simp only [Threads.step] at hs
    split at hs
    · injection hs with hs; injection hs with h1 h2; subst h1; simpa [goto, hut] using ht
    · cases hs
  | lock u =>
    simp only [Threads.step] at hs
    by_cases hut : t = u
    · subst hut; simp [ht] at hs
    · repeat' split at hs
      all_goals first
        | cases hs; done
        | (injection hs with hs; injection hs with h1 h2; subst h1; simpa [goto, hut] using ht)
  | work u i =>
    simp only [Threads.step] at hs
    by_cases hut : t = u
    · subst hut; simp [ht] at hs
    · repeat' split at hs
      all_goals first
        | cases hs; done
        | (injection hs with hs; injection hs with h1 h2; subst h1; simpa [goto, hut] using ht)
  | ret u =>
    simp only [Threads.step] at hs
    by_cases hut : t = u
    · subst hut; simp [ht] at hs
    · repeat' split at hs
      all_goals first
        | cases hs; done
        | (injection hs with hs; injection hs with h1 h2; subst h1; simpa [goto, hut] using ht)
  | io o =>
    simp only [Threads.step] at hs
    split at hs
    · cases hs
    · injection hs with hs; injection hs with h1 h2; subst h1; exact ht

theorem idle_run {codecs : ι → Codec} (es : List (TEv ι)) {s s' : Threads ι} {h : List (HEv Op Res)} {t : Nat}
    (hs : Threads.run codecs s es = some (s', h)) (ht : s.th t = .idle) (he : ∀ op, .call t op ∉ es) : s'.th t = .idle := by
  induction es generalizing s h with
  | nil =>
    simp only [Threads.run, Option.some.injEq, Prod.mk.injEq] at hs
    obtain ⟨rfl, rfl⟩ := hs
    exact ht
  | cons e es ih =>
    unfold Threads.run at hs
    split at hs
    · cases hs
    · rename_i s1 v h1
      split at hs
      · cases hs
      · rename_i s2 h2 hr
        simp only [Option.some.injEq, Prod.mk.injEq] at hs
        obtain ⟨rfl, rfl⟩ := hs
        refine ih hr (idle_step h1 ht (fun op hop => he op (by simp [hop]))) (fun op hop => he op (List.mem_cons_of_mem _ hop))

/-- Thread 0 puts `a` and deletes it, thread 1 reads `a` twice, the calls overlapping; thread 1 gets the lock first. -/
def threadsDemo : List (TEv Unit) :=
  [.call 0 (.mut (.put "a" ⟨6, [7]⟩)), .call 1 (.get "a" 6), .lock 1, .work 1 (), .lock 0, .work 0 (), .ret 1, .call 1 (.get "a" 6),
   .work 0 (), .io id, .ret 0, .call 0 (.mut (.delete "a")), .lock 1, .work 1 (), .lock 0, .ret 1, .work 0 (), .io id, .work 0 (), .ret 0]

/-- What an observer sees of it. -/
def threadsDemoHist : List (HEv Op Res) :=
  [.inv 0 (.mut (.put "a" ⟨6, [7]⟩)), .inv 1 (.get "a" 6), .res 1 (.err .keyNotFound), .inv 1 (.get "a" 6), .res 0 (.ok none),
   .inv 0 (.mut (.delete "a")), .res 1 (.ok (some [7])), .res 0 (.ok none)]

/-- The close of the last handle. -/
def threadsClose : List (Ev Unit) := .drop :: (List.replicate 7 (id : Order)).map .io

def threadsDemoCheck : Bool :=
  match openAt plain () 64 [] with
  | none => false
  | some s0 => match Threads.run plain { inst := s0 } threadsDemo with
    | none => false
    | some (s, h) =>
      decide (h = threadsDemoHist) &&
      decide (s.th 0 = .idle) && decide (s.th 1 = .idle) &&
      match Inst.run plain s.inst threadsClose with
      | none => false
      | some (s', rs) => decide (rs = []) && decide (s'.phase = .closed) && decide (s'.lp.io = .exited)

/-- The hypotheses of C70 are met, `C70_saved` included, by a history in which calls overlap and the second `get` returns the value of
a put that has not returned when the `get` is made. -/
example : ∃ s0 s s', openAt plain () 64 [] = some s0 ∧ s0.Shows Store.empty ∧
    Threads.run plain { inst := s0 } threadsDemo = some (s, threadsDemoHist) ∧
    (∀ t, s.th t = .idle) ∧ s.owner = none ∧ NoFailure s threadsDemoHist ∧
    Inst.run plain s.inst threadsClose = some (s', []) ∧ s'.closedOk ∧
    (∀ t op, .inv t op ∈ threadsDemoHist → opBytes op ≤ 100) := by
  have hc : threadsDemoCheck = true := by decide +kernel
  unfold threadsDemoCheck at hc
  cases h0 : openAt plain () 64 [] with
  | none => simp [h0] at hc
  | some s0 =>
    simp only [h0] at hc
    cases h1 : Threads.run plain { inst := s0 } threadsDemo with
    | none => simp [h1] at hc
    | some p =>
      obtain ⟨s, h⟩ := p
      simp only [h1] at hc
      cases h2 : Inst.run plain s.inst threadsClose with
      | none => simp [h2] at hc
      | some p =>
        obtain ⟨s', rs⟩ := p
        simp only [h2, Bool.and_eq_true, decide_eq_true_eq] at hc
        obtain ⟨⟨⟨e1, e2⟩, e3⟩, ⟨e4, e5⟩, e6⟩ := hc
        have hidle : ∀ t, s.th t = .idle := by
          intro t
          by_cases ht0 : t = 0
          · subst ht0; exact e2
          by_cases ht1 : t = 1
          · subst ht1; exact e3
          exact idle_run _ h1 rfl (by intro op; simp [threadsDemo, ht0, ht1])
        have hnf : NoFailure s h := by
          refine ⟨?_, fun t r ht => by rw [hidle t] at ht; cases ht⟩
          intro t r he
          rw [e1] at he
          simp [threadsDemoHist] at he
          rcases he with ⟨_, rfl⟩ | ⟨_, rfl⟩ | ⟨_, rfl⟩ | ⟨_, rfl⟩ <;> rfl
        obtain ⟨L, σ, hi⟩ := tinv_run _ (tinv_start (fun _ => True) h0) (fun e _ => e.chosen_true) h1
        refine ⟨s0, s, s', rfl, (openAt_nil_shows h0).1, by rw [← e1]; exact h1, hidle, ?_, by rw [← e1]; exact hnf,
          by rw [h2, e4], ⟨e5, e6⟩, ?_⟩
        · cases ho : s.owner with
          | none => rfl
          | some t =>
            obtain ⟨_, m, hm, _⟩ := hi.held t ho
            rw [hidle t] at hm; cases hm
        · intro t op he
          simp [threadsDemoHist] at he
          rcases he with h | h | h <;> (obtain ⟨_, rfl⟩ := h; decide +kernel)

end Mmkv
