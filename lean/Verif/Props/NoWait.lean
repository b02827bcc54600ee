import Verif.Props.Linear
/-!
# C82: put, get and delete never wait for the disk

Threads call a store (`Model/Threads`).  Only `clear_data` ever waits for the background thread; every other call is over after at
most four steps of its own, needs no step of the background thread, and does not touch the file.
-/

namespace Mmkv.Threads
open Spec Inst
variable {ι : Type}

/-- The event is a step of the calling thread `t`. -/
def _root_.Mmkv.TEv.isBy (t : Nat) : TEv ι → Bool
  | .call u _ | .lock u | .work u _ | .ret u => u == t
  | .io _ => false

/-- The event is a step of a call that has already begun. -/
def _root_.Mmkv.TEv.inCall : TEv ι → Bool
  | .lock _ | .work _ _ | .ret _ => true
  | _ => false

/-- `clear_data` has the lock. -/
def Clearing (s : Threads ι) : Prop := ∃ t, s.th t = .inside (.mut .clear)

/-- Who holds which lock. -/
structure LockInv (s : Threads ι) : Prop where
  ok : ∀ t op, s.th t = .waiting op → op.ok = true
  free : s.owner = none → s.inst.phase = .idle
  held : ∀ t, s.owner = some t → ∃ m, s.th t = .inside (.mut m) ∧ (m ≠ .clear → (∃ j, s.inst.phase = .push j) ∨ s.inst.phase = .send)
  ins : ∀ t m, s.th t = .inside (.mut m) → s.owner = some t
  rd : ∀ t, t ∈ s.readers ↔ ∃ k tok, s.th t = .inside (.get k tok)
  nodup : s.readers.Nodup
  excl : ∀ t, s.owner = some t → s.readers = []

theorem step_io_phase {codecs : ι → Codec} {s s' : Inst ι} {o : Order} {r : Option (Out Unit)}
    (h : Inst.step codecs s (.io o) = some (s', r)) : s'.phase = s.phase ∧ r = none := by
  simp only [Inst.step] at h
  split at h
  · cases h
  · injection h with h; injection h with h1 h2; subst h1 h2; exact ⟨rfl, rfl⟩

/-- The first step of a call on a free store: it returns at once, or goes on. -/
theorem begin_phase {codecs : ι → Codec} {s s' : Inst ι} {m : Mutation} {r : Option (Out Unit)} (hph : s.phase = .idle)
    (h : Inst.step codecs s (evOf m) = some (s', r)) :
    (∀ x, r = some x → s'.phase = .idle) ∧ (r = none → m ≠ .clear → ∃ j, s'.phase = .push j) ∧ (m ≠ .clear → s'.lp = s.lp) := by
  cases m with
  | put k e =>
    simp only [evOf, Inst.step] at h
    split at h
    · cases h
    split at h
    · injection h with h; injection h with h1 h2; subst h1 h2; exact ⟨fun _ _ => hph, by simp, fun _ => rfl⟩
    split at h
    · injection h with h; injection h with h1 h2; subst h1 h2; exact ⟨fun _ _ => hph, by simp, fun _ => rfl⟩
    injection h with h; injection h with h1 h2; subst h1 h2; exact ⟨by simp, fun _ _ => ⟨_, rfl⟩, fun _ => rfl⟩
  | delete k =>
    simp only [evOf, Inst.step] at h
    split at h
    · cases h
    split at h
    · injection h with h; injection h with h1 h2; subst h1 h2; exact ⟨fun _ _ => hph, by simp, fun _ => rfl⟩
    split at h
    · injection h with h; injection h with h1 h2; subst h1 h2; exact ⟨fun _ _ => hph, by simp, fun _ => rfl⟩
    split at h
    · injection h with h; injection h with h1 h2; subst h1 h2; exact ⟨fun _ _ => hph, by simp, fun _ => rfl⟩
    injection h with h; injection h with h1 h2; subst h1 h2; exact ⟨by simp, fun _ _ => ⟨_, rfl⟩, fun _ => rfl⟩
  | clear =>
    simp only [evOf, Inst.step] at h
    split at h
    · cases h
    split at h
    · injection h with h; injection h with h1 h2; subst h1 h2; exact ⟨fun _ _ => hph, by simp, by simp⟩
    split at h <;>
    · injection h with h; injection h with h1 h2; subst h1 h2; exact ⟨by simp, by simp, by simp⟩

/-- A step of a call that works under the write lock: `put` and `delete` push, then send and return. -/
theorem api_phase {codecs : ι → Codec} {s : Inst ι} (i : ι) :
    (∀ j, s.phase = .push j → Inst.step codecs s (.api i) = some ({ s with lp := Looper.push s.lp j, phase := .send }, none)) ∧
    (s.phase = .send → ∃ r, Inst.step codecs s (.api i) = some ({ s with lp := (Looper.send s.lp).1, phase := .idle }, some r)) := by
  constructor
  · intro j h; simp [Inst.step, h]
  · intro h; exact ⟨_, by simp only [Inst.step, h]; rfl⟩

theorem api_ret_idle {codecs : ι → Codec} {s s' : Inst ι} {i : ι} {r : Out Unit}
    (h : Inst.step codecs s (.api i) = some (s', some r)) : s'.phase = .idle := by
  have hopen : ∀ {j : ι} {page : Nat} {file : Bytes} {u : Nat} {q : Option Nat} {s1 : Inst ι}, openAt codecs j page file u q = some s1 → s1.phase = .idle := by
    intro j page file u q s1 h1
    unfold openAt at h1
    split at h1
    · cases h1
    · injection h1 with h1; subst h1; rfl
  simp only [Inst.step] at h
  cases hp : s.phase <;> simp only [hp] at h
  case idle => cases h
  case closed => cases h
  case push j => simp at h
  case send => simp at h; rw [← h.1]
  case clrPush => simp at h
  case clrSend =>
    split at h
    · simp at h
    · simp at h; rw [← h.1]
  case clrQuit =>
    split at h
    · simp at h
    · simp at h; rw [← h.1]
  case clrJoin =>
    split at h
    · simp at h
    · split at h
      · simp at h; rw [← h.1]
      · cases h
  case clrOpen =>
    split at h
    · simp at h; rw [← h.1]
    · rename_i s1 h1
      split at h
      · simp at h; rw [← h.1]; exact hopen h1
      · split at h
        · simp at h; rw [← h.1]; exact hopen h1
        · split at h
          · simp at h; rw [← h.1]; exact (hopen h1 : s1.phase = .idle)
          · cases h

theorem lockInv_step {codecs : ι → Codec} {s s' : Threads ι} {e : TEv ι} {v : Option (HEv Op Res)} (hi : LockInv s)
    (hs : step codecs s e = some (s', v)) : LockInv s' := by
  cases e with
  | call t op =>
    simp only [step] at hs
    split at hs
    · rename_i hc
      injection hs with hs; injection hs with h1 h2; subst h1 h2
      have hne : ∀ u x, s.th u = x → x ≠ .idle → (s.goto t (.waiting op)).th u = x := by
        intro u x h1 h2
        rw [goto_other _ _ (by rintro rfl; exact h2 (h1.symm.trans hc.1)), h1]
      have hback : ∀ u x, (s.goto t (.waiting op)).th u = x → (∀ op', x ≠ .waiting op') → s.th u = x := by
        intro u x h1 h2
        by_cases hut : u = t
        · subst hut; rw [goto_self] at h1; exact absurd h1.symm (h2 op)
        · rwa [goto_other _ _ hut] at h1
      refine ⟨?_, hi.free, ?_, ?_, ?_, hi.nodup, hi.excl⟩
      · intro u op' h
        by_cases hut : u = t
        · subst hut; rw [goto_self] at h; injection h with h; subst h; exact hc.2
        · rw [goto_other _ _ hut] at h; exact hi.ok u op' h
      · intro u hu
        obtain ⟨m, h1, h2⟩ := hi.held u hu
        exact ⟨m, hne _ _ h1 (by simp), h2⟩
      · intro u m h
        exact hi.ins u m (hback _ _ h (by simp))
      · intro u
        show u ∈ s.readers ↔ _
        rw [hi.rd u]
        exact ⟨fun ⟨k, tok, h⟩ => ⟨k, tok, hne _ _ h (by simp)⟩, fun ⟨k, tok, h⟩ => ⟨k, tok, hback _ _ h (by simp)⟩⟩
    · cases hs
  | lock t =>
    simp only [step] at hs
    cases hth : s.th t with
    | idle => simp [hth] at hs
    | inside op => simp [hth] at hs
    | done r => simp [hth] at hs
    | waiting op =>
      cases op with
      | get k tok =>
        simp only [hth] at hs
        split at hs
        · rename_i ho
          injection hs with hs; injection hs with h1 h2; subst h1 h2
          have hot : ∀ u, u ≠ t → (s.goto t (.inside (.get k tok))).th u = s.th u := fun u hu => goto_other _ _ hu
          have hself : (s.goto t (.inside (.get k tok))).th t = .inside (.get k tok) := goto_self _ _ _
          refine ⟨?_, hi.free, ?_, ?_, ?_, ?_, ?_⟩
          · intro u op' h
            by_cases hut : u = t
            · subst hut; exact absurd (hself.symm.trans h) (by simp)
            · exact hi.ok u op' ((hot u hut).symm.trans h)
          · intro u hu; rw [show s.owner = some u from hu] at ho; cases ho
          · intro u m h
            by_cases hut : u = t
            · subst hut; exact absurd (hself.symm.trans h) (by simp)
            · exact hi.ins u m ((hot u hut).symm.trans h)
          · intro u
            show u ∈ t :: s.readers ↔ ∃ k' tok', (s.goto t (.inside (.get k tok))).th u = _
            by_cases hut : u = t
            · subst hut; rw [hself]; simp
            · rw [hot u hut, List.mem_cons, hi.rd u]; simp [hut]
          · refine List.nodup_cons.2 ⟨?_, hi.nodup⟩
            intro hmem
            obtain ⟨k', tok', h⟩ := (hi.rd t).1 hmem
            rw [hth] at h; cases h
          · intro u hu; rw [show s.owner = some u from hu] at ho; cases ho
        · cases hs
      | «mut» m =>
        simp only [hth] at hs
        split at hs
        · rename_i ho
          have hph := hi.free ho.1
          split at hs
          · cases hs
          · rename_i x hx
            injection hs with hs; injection hs with h1 h2; subst h1 h2
            obtain ⟨_, hb, _⟩ := begin_phase hph hx
            have hot : ∀ u, u ≠ t → (s.goto t (.inside (.mut m))).th u = s.th u := fun u hu => goto_other _ _ hu
            have hself : (s.goto t (.inside (.mut m))).th t = .inside (.mut m) := goto_self _ _ _
            refine ⟨?_, by simp, ?_, ?_, ?_, hi.nodup, fun _ _ => ho.2⟩
            · intro u op' h
              by_cases hut : u = t
              · subst hut; exact absurd (hself.symm.trans h) (by simp)
              · exact hi.ok u op' ((hot u hut).symm.trans h)
            · intro u hu
              simp only [Option.some.injEq] at hu
              subst hu
              exact ⟨m, hself, fun hm => .inl (hb rfl hm)⟩
            · intro u m' h
              by_cases hut : u = t
              · subst hut; rfl
              · have := hi.ins u m' ((hot u hut).symm.trans h)
                rw [ho.1] at this; cases this
            · intro u
              show u ∈ s.readers ↔ ∃ k' tok', (s.goto t (.inside (.mut m))).th u = _
              by_cases hut : u = t
              · subst hut; rw [hself, ho.2]; simp
              · rw [hot u hut, hi.rd u]
          · rename_i x r hx
            injection hs with hs; injection hs with h1 h2; subst h1 h2
            obtain ⟨ha, _, _⟩ := begin_phase hph hx
            have hot : ∀ u, u ≠ t → (s.goto t (.done (resOf r))).th u = s.th u := fun u hu => goto_other _ _ hu
            have hself : (s.goto t (.done (resOf r))).th t = .done (resOf r) := goto_self _ _ _
            refine ⟨?_, fun _ => ha _ rfl, ?_, ?_, ?_, hi.nodup, ?_⟩
            · intro u op' h
              by_cases hut : u = t
              · subst hut; exact absurd (hself.symm.trans h) (by simp)
              · exact hi.ok u op' ((hot u hut).symm.trans h)
            · intro u hu; have : s.owner = some u := hu; rw [ho.1] at this; cases this
            · intro u m' h
              by_cases hut : u = t
              · subst hut; exact absurd (hself.symm.trans h) (by simp)
              · exact hi.ins u m' ((hot u hut).symm.trans h)
            · intro u
              show u ∈ s.readers ↔ ∃ k' tok', (s.goto t (.done (resOf r))).th u = _
              by_cases hut : u = t
              · subst hut; rw [hself, ho.2]; simp
              · rw [hot u hut, hi.rd u]
            · intro u hu; have : s.owner = some u := hu; rw [ho.1] at this; cases this
        · cases hs
  | work t i =>
    simp only [step] at hs
    cases hth : s.th t with
    | idle => simp [hth] at hs
    | waiting op => simp [hth] at hs
    | done r => simp [hth] at hs
    | inside op =>
      cases op with
      | get k tok =>
        simp only [hth] at hs
        injection hs with hs; injection hs with h1 h2; subst h1 h2
        generalize s.inst.getAs k tok (fun bs => Out.ok (some bs)) = r
        have hot : ∀ u, u ≠ t → (s.goto t (.done r)).th u = s.th u := fun u hu => goto_other _ _ hu
        have hself : (s.goto t (.done r)).th t = .done r := goto_self _ _ _
        have hmem : t ∈ s.readers := (hi.rd t).2 ⟨k, tok, hth⟩
        have hno : s.owner = none := by
          cases ho : s.owner with
          | none => rfl
          | some u => rw [hi.excl u ho] at hmem; cases hmem
        refine ⟨?_, hi.free, ?_, ?_, ?_, hi.nodup.erase _, ?_⟩
        · intro u op' h
          by_cases hut : u = t
          · subst hut; exact absurd (hself.symm.trans h) (by simp)
          · exact hi.ok u op' ((hot u hut).symm.trans h)
        · intro u hu; have : s.owner = some u := hu; rw [hno] at this; cases this
        · intro u m' h
          by_cases hut : u = t
          · subst hut; exact absurd (hself.symm.trans h) (by simp)
          · exact hi.ins u m' ((hot u hut).symm.trans h)
        · intro u
          show u ∈ s.readers.erase t ↔ ∃ k' tok', (s.goto t (.done r)).th u = _
          by_cases hut : u = t
          · subst hut; rw [hself]
            have := hi.nodup.not_mem_erase (a := u)
            simp [this]
          · rw [hot u hut, List.mem_erase_of_ne hut, hi.rd u]
        · intro u hu; have : s.owner = some u := hu; rw [hno] at this; cases this
      | «mut» m =>
        simp only [hth] at hs
        have howner := hi.ins t m hth
        split at hs
        · cases hs
        · rename_i x hx
          injection hs with hs; injection hs with h1 h2; subst h1 h2
          refine ⟨hi.ok, fun h => ?_, ?_, hi.ins, hi.rd, hi.nodup, hi.excl⟩
          · have : s.owner = none := h
            rw [howner] at this; cases this
          · intro u hu
            have hu' : s.owner = some u := hu
            rw [howner] at hu'
            injection hu' with hu'
            subst hu'
            refine ⟨m, hth, fun hm => ?_⟩
            obtain ⟨m', h1, h2⟩ := hi.held t howner
            rw [hth] at h1; injection h1 with h1; injection h1 with h1; subst h1
            rcases h2 hm with ⟨j, h⟩ | h
            · rw [(api_phase i).1 j h] at hx
              injection hx with hx; injection hx with h1 _; subst h1
              exact .inr rfl
            · obtain ⟨r, hr⟩ := (api_phase (codecs := codecs) i).2 h
              rw [hr] at hx
              injection hx with hx; injection hx with _ h2; cases h2
        · rename_i x r hx
          injection hs with hs; injection hs with h1 h2; subst h1 h2
          have hot : ∀ u, u ≠ t → (s.goto t (.done (resOf r))).th u = s.th u := fun u hu => goto_other _ _ hu
          have hself : (s.goto t (.done (resOf r))).th t = .done (resOf r) := goto_self _ _ _
          refine ⟨?_, fun _ => api_ret_idle hx, by simp, ?_, ?_, hi.nodup, by simp⟩
          · intro u op' h
            by_cases hut : u = t
            · subst hut; exact absurd (hself.symm.trans h) (by simp)
            · exact hi.ok u op' ((hot u hut).symm.trans h)
          · intro u m' h
            by_cases hut : u = t
            · subst hut; exact absurd (hself.symm.trans h) (by simp)
            · have := hi.ins u m' ((hot u hut).symm.trans h)
              rw [howner] at this; injection this with this; exact absurd this.symm hut
          · intro u
            show u ∈ s.readers ↔ ∃ k' tok', (s.goto t (.done (resOf r))).th u = _
            by_cases hut : u = t
            · subst hut; rw [hself, hi.excl u howner]; simp
            · rw [hot u hut, hi.rd u]
  | ret t =>
    simp only [step] at hs
    cases hth : s.th t with
    | idle => simp [hth] at hs
    | waiting op => simp [hth] at hs
    | inside op => simp [hth] at hs
    | done r =>
      simp only [hth] at hs
      injection hs with hs; injection hs with h1 h2; subst h1 h2
      have hne : ∀ u x, s.th u = x → (∀ r, x ≠ .done r) → (s.goto t .idle).th u = x := by
        intro u x h1 h2
        rw [goto_other _ _ (by rintro rfl; exact h2 r (h1.symm.trans hth)), h1]
      have hback : ∀ u x, (s.goto t .idle).th u = x → x ≠ .idle → s.th u = x := by
        intro u x h1 h2
        by_cases hut : u = t
        · subst hut; rw [goto_self] at h1; exact absurd h1.symm h2
        · rwa [goto_other _ _ hut] at h1
      refine ⟨fun u op h => hi.ok u op (hback _ _ h (by simp)), hi.free, ?_, fun u m h => hi.ins u m (hback _ _ h (by simp)), ?_, hi.nodup, hi.excl⟩
      · intro u hu
        obtain ⟨m, h1, h2⟩ := hi.held u hu
        exact ⟨m, hne _ _ h1 (by simp), h2⟩
      · intro u
        show u ∈ s.readers ↔ _
        rw [hi.rd u]
        exact ⟨fun ⟨k, tok, h⟩ => ⟨k, tok, hne _ _ h (by simp)⟩, fun ⟨k, tok, h⟩ => ⟨k, tok, hback _ _ h (by simp)⟩⟩
  | io o =>
    simp only [step] at hs
    split at hs
    · cases hs
    · rename_i x r hx
      injection hs with hs; injection hs with h1 h2; subst h1 h2
      obtain ⟨hp, _⟩ := step_io_phase hx
      refine ⟨hi.ok, fun h => hp.trans (hi.free h), ?_, hi.ins, hi.rd, hi.nodup, hi.excl⟩
      intro u hu
      obtain ⟨m, h1, h2⟩ := hi.held u hu
      exact ⟨m, h1, fun hm => by show (∃ j, x.phase = _) ∨ x.phase = _; rw [hp]; exact h2 hm⟩

theorem lockInv_start {codecs : ι → Codec} {i : ι} {page : Nat} {file : Bytes} {u : Nat} {q : Option Nat} {s0 : Inst ι}
    (h : openAt codecs i page file u q = some s0) : LockInv { inst := s0 } := by
  refine ⟨?_, fun _ => (rel_open h).2, ?_, ?_, ?_, .nil, ?_⟩
  · intro t op h; cases h
  · intro t h; cases h
  · intro t m h; cases h
  · intro t; simp
  · intro t h; cases h

theorem lockInv_run {codecs : ι → Codec} (es : List (TEv ι)) {s s' : Threads ι} {h : List (HEv Op Res)} (hi : LockInv s)
    (hs : run codecs s es = some (s', h)) : LockInv s' := by
  induction es generalizing s h with
  | nil => simp only [run, Option.some.injEq, Prod.mk.injEq] at hs; rw [← hs.1]; exact hi
  | cons e es ih =>
    simp only [run] at hs
    split at hs
    · cases hs
    · rename_i s1 v h1
      split at hs
      · cases hs
      · rename_i s2 h2 hr
        injection hs with hs; injection hs with g1 g2; subst g1
        exact ih (lockInv_step hi h1) hr

theorem run_trans {codecs : ι → Codec} {es es' : List (TEv ι)} {s s1 s2 : Threads ι} {h h' : List (HEv Op Res)}
    (h1 : run codecs s es = some (s1, h)) (h2 : run codecs s1 es' = some (s2, h')) : run codecs s (es ++ es') = some (s2, h ++ h') := by
  induction es generalizing s h with
  | nil =>
    simp only [run, Option.some.injEq, Prod.mk.injEq] at h1
    obtain ⟨rfl, rfl⟩ := h1
    simpa using h2
  | cons e es ih =>
    simp only [run] at h1
    split at h1
    · cases h1
    · rename_i x v hx
      split at h1
      · cases h1
      · rename_i y g hy
        injection h1 with h1; injection h1 with g1 g2; subst g1 g2
        simp only [List.cons_append, run, hx, ih hy, List.append_assoc]

theorem run_one {codecs : ι → Codec} {e : TEv ι} {s s1 : Threads ι} {v : Option (HEv Op Res)} (h : step codecs s e = some (s1, v)) :
    run codecs s [e] = some (s1, v.toList) := by simp [run, h]

theorem finish_done {codecs : ι → Codec} {s : Threads ι} {t : Nat} {r : Res} (h : s.th t = .done r) :
    ∃ s', run codecs s [.ret t] = some (s', [.res t r]) := ⟨s.goto t .idle, by simp [run, step, h]⟩

/-- What is asked of the rest of a call: made of steps of calls already begun, at most `n` of them, and `t` returns. -/
def Finishes (codecs : ι → Codec) (s : Threads ι) (t n : Nat) : Prop :=
  ∃ es s' h r, (∀ e ∈ es, TEv.inCall e = true) ∧ es.length ≤ n ∧ run codecs s es = some (s', h) ∧ .res t r ∈ h

theorem Finishes.before {codecs : ι → Codec} {s s1 : Threads ι} {t n n' : Nat} {e : TEv ι} {v : Option (HEv Op Res)} (h : Finishes codecs s1 t n)
    (he : e.inCall = true) (hs : step codecs s e = some (s1, v)) (hn : n + 1 ≤ n') : Finishes codecs s t n' := by
  obtain ⟨es, s', h, r, h1, h2, h3, h4⟩ := h
  refine ⟨e :: es, s', _, r, ?_, by simp; omega, run_trans (run_one hs) h3, List.mem_append_right _ h4⟩
  intro x hx
  rcases List.mem_cons.1 hx with rfl | hx
  · exact he
  · exact h1 x hx

theorem finishes_done {codecs : ι → Codec} {s : Threads ι} {t : Nat} {r : Res} (h : s.th t = .done r) : Finishes codecs s t 1 := by
  obtain ⟨s', h'⟩ := finish_done (codecs := codecs) h
  exact ⟨_, s', _, r, by simp [TEv.inCall], by simp, h', by simp⟩

theorem finishes_get {codecs : ι → Codec} {s : Threads ι} {t : Nat} {k : String} {tok : BitVec 32} (h : s.th t = .inside (.get k tok)) :
    Finishes codecs s t 2 := by
  have hs : step codecs s (.work t s.inst.idx) = some ({ s.goto t (.done (s.inst.getAs k tok fun bs => .ok (some bs))) with readers := s.readers.erase t }, none) := by
    simp only [step, h]
  exact (finishes_done (r := s.inst.getAs k tok fun bs => .ok (some bs)) (by exact goto_self _ _ _)).before rfl hs (by omega)

theorem finishes_send {codecs : ι → Codec} {s : Threads ι} {t : Nat} {m : Mutation} (h : s.th t = .inside (.mut m)) (hp : s.inst.phase = .send) :
    ∃ s1, step codecs s (.work t s.inst.idx) = some (s1, none) ∧ s1.owner = none ∧ s1.readers = s.readers ∧ (∀ u, u ≠ t → s1.th u = s.th u) ∧
      Finishes codecs s1 t 1 := by
  obtain ⟨r, hr⟩ := (api_phase (codecs := codecs) s.inst.idx).2 hp
  exact ⟨{ s.goto t (.done (resOf r)) with inst := { s.inst with lp := (Looper.send s.inst.lp).1, phase := .idle }, owner := none },
    by simp only [step, h, hr], rfl, rfl, fun u hu => goto_other _ _ hu, finishes_done (r := resOf r) (goto_self _ _ _)⟩

theorem finishes_push {codecs : ι → Codec} {s : Threads ι} {t : Nat} {m : Mutation} {j : Job} (h : s.th t = .inside (.mut m))
    (hp : s.inst.phase = .push j) :
    ∃ s1, step codecs s (.work t s.inst.idx) = some (s1, none) ∧ s1.th = s.th ∧ s1.inst.phase = .send ∧ s1.readers = s.readers :=
  ⟨{ s with inst := { s.inst with lp := Looper.push s.inst.lp j, phase := .send } },
    by simp only [step, h, (api_phase (codecs := codecs) s.inst.idx).1 j hp], rfl, rfl, rfl⟩

theorem finishes_mut {codecs : ι → Codec} {s : Threads ι} {t : Nat} {m : Mutation} (h : s.th t = .inside (.mut m))
    (hp : (∃ j, s.inst.phase = .push j) ∨ s.inst.phase = .send) : Finishes codecs s t 3 := by
  rcases hp with ⟨j, hp⟩ | hp
  · obtain ⟨s1, h1, h2, h3, _⟩ := finishes_push (codecs := codecs) h hp
    obtain ⟨s2, h4, _, _, _, h5⟩ := finishes_send (codecs := codecs) (s := s1) (by rw [h2]; exact h) h3
    exact (h5.before rfl h4 (Nat.le_refl 2)).before rfl h1 (Nat.le_refl 3)
  · obtain ⟨s1, h1, _, _, _, h2⟩ := finishes_send (codecs := codecs) h hp
    exact h2.before rfl h1 (by omega)

theorem begin_some {codecs : ι → Codec} {s : Inst ι} {m : Mutation} (hp : s.phase = .idle) (hok : (Op.mut m).ok = true) :
    (Inst.step codecs s (evOf m)).isSome = true := by
  cases m with
  | put k e =>
    have : tokenOk e.token = true := hok
    simp only [evOf, Inst.step, hp, this]
    split
    · rename_i h; simp at h
    · split
      · rfl
      · split <;> rfl
  | delete k =>
    simp only [evOf, Inst.step, hp, ne_eq, not_true_eq_false, if_false]
    split
    · rfl
    · split
      · rfl
      · split <;> rfl
  | clear =>
    simp only [evOf, Inst.step, hp, ne_eq, not_true_eq_false, if_false]
    split
    · rfl
    · split <;> rfl

theorem finishes_alone {codecs : ι → Codec} {s : Threads ι} (hi : LockInv s) {t : Nat} {op : Op} (hop : op ≠ .mut .clear)
    (h : s.th t = .waiting op) (ho : s.owner = none) (hr : s.readers = []) : Finishes codecs s t 4 := by
  cases op with
  | get k tok =>
    have hs : step codecs s (.lock t) = some ({ s.goto t (.inside (.get k tok)) with readers := t :: s.readers }, none) := by
      simp only [step, h, ho, if_true]
    refine Finishes.before (finishes_get (k := k) (tok := tok) ?_) rfl hs (by omega)
    exact goto_self _ _ _
  | «mut» m =>
    have hok := hi.ok t _ h
    obtain ⟨⟨x, r⟩, hx⟩ := Option.isSome_iff_exists.1 (begin_some (codecs := codecs) (hi.free ho) hok)
    obtain ⟨ha, hb, _⟩ := begin_phase (hi.free ho) hx
    cases r with
    | none =>
      have hs : step codecs s (.lock t) = some ({ s.goto t (.inside (.mut m)) with inst := x, owner := some t }, none) := by
        simp only [step, h, ho, hr, hx, and_self, if_true]
      refine Finishes.before (finishes_mut (m := m) ?_ (.inl (hb rfl (by rintro rfl; exact hop rfl)))) rfl hs (by omega)
      exact goto_self _ _ _
    | some r =>
      have hs : step codecs s (.lock t) = some ({ s.goto t (.done (resOf r)) with inst := x }, none) := by
        simp only [step, h, ho, hr, hx, and_self, if_true]
      refine Finishes.before (finishes_done (r := resOf r) ?_) rfl hs (by omega)
      exact goto_self _ _ _

theorem finishes_readers {codecs : ι → Codec} {s : Threads ι} (hi : LockInv s) {t : Nat} {op : Op} (hop : op ≠ .mut .clear)
    (h : s.th t = .waiting op) (ho : s.owner = none) {n : Nat} (hn : s.readers.length = n) : Finishes codecs s t (n + 4) := by
  induction n generalizing s with
  | zero => exact finishes_alone hi hop h ho (List.eq_nil_of_length_eq_zero hn)
  | succ n ih =>
    cases hr : s.readers with
    | nil => simp [hr] at hn
    | cons u us =>
      obtain ⟨k, tok, hu⟩ := (hi.rd u).1 (by simp [hr])
      have hut : t ≠ u := by rintro rfl; rw [h] at hu; cases hu
      have hs : step codecs s (.work u s.inst.idx) = some ({ s.goto u (.done (s.inst.getAs k tok fun bs => .ok (some bs))) with readers := s.readers.erase u }, none) := by
        simp only [step, hu]
      refine (ih (lockInv_step hi hs) ((goto_other _ _ hut).trans h) ho ?_).before rfl hs (by omega)
      show (s.readers.erase u).length = n
      rw [List.length_erase_of_mem (by simp [hr]), hn]; rfl

/-- **C82**, the background thread is not needed: whatever the threads of a program have done, if `clear_data` does not hold the
lock, then any `put`, `get` or `delete` that has begun can be completed by the calling threads alone - no step of the background
thread, which may be waiting for the disk for ever - within five more steps plus one for each `get` that holds the lock. -/
theorem C82_no_wait {codecs : ι → Codec} {i : ι} {page : Nat} {file : Bytes} {u : Nat} {q : Option Nat} {s0 : Inst ι} {s : Threads ι}
    {es : List (TEv ι)} {h : List (HEv Op Res)} (hopen : openAt codecs i page file u q = some s0)
    (hrun : run codecs { inst := s0 } es = some (s, h)) (hnc : ¬ s.Clearing) {t : Nat} {op : Op} (hop : op ≠ .mut .clear)
    (ht : s.th t = .waiting op ∨ s.th t = .inside op ∨ ∃ r, s.th t = .done r) :
    ∃ es' s' h' r, (∀ e ∈ es', e.inCall = true) ∧ es'.length ≤ s.readers.length + 6 ∧ run codecs s es' = some (s', h') ∧ .res t r ∈ h' := by
  have hi := lockInv_run es (lockInv_start hopen) hrun
  have weaken : ∀ {n : Nat}, Finishes codecs s t n → n ≤ s.readers.length + 6 → Finishes codecs s t (s.readers.length + 6) := by
    rintro n ⟨es, s', h, r, h1, h2, h3, h4⟩ hn
    exact ⟨es, s', h, r, h1, by omega, h3, h4⟩
  have hmut : ∀ {u : Nat} {m : Mutation}, s.th u = .inside (.mut m) → (∃ j, s.inst.phase = .push j) ∨ s.inst.phase = .send := by
    intro u m hu
    obtain ⟨m', h1, h2⟩ := hi.held u (hi.ins u m hu)
    rw [hu] at h1; injection h1 with h1; injection h1 with h1; subst h1
    exact h2 (by rintro rfl; exact hnc ⟨u, hu⟩)
  rcases ht with ht | ht | ⟨r, ht⟩
  · cases ho : s.owner with
    | none => exact weaken (finishes_readers hi hop ht ho rfl) (by omega)
    | some u =>
      obtain ⟨m, hu, _⟩ := hi.held u ho
      have hrd := hi.excl u ho
      have hut : t ≠ u := by rintro rfl; rw [ht] at hu; cases hu
      have last : ∀ {s : Threads ι}, LockInv s → s.th t = .waiting op → s.th u = .inside (.mut m) → s.inst.phase = .send → s.readers = [] →
          Finishes codecs s t 5 := by
        intro s hi ht hu hp hrd
        obtain ⟨s1, h1, h2, h3, h4, _⟩ := finishes_send (codecs := codecs) hu hp
        exact (finishes_alone (lockInv_step hi h1) hop ((h4 t hut).trans ht) h2 (h3.trans hrd)).before rfl h1 (Nat.le_refl _)
      rcases hmut hu with ⟨j, hp⟩ | hp
      · obtain ⟨s1, h1, h2, h3, h4⟩ := finishes_push (codecs := codecs) hu hp
        exact weaken ((last (lockInv_step hi h1) (by rw [h2]; exact ht) (by rw [h2]; exact hu) h3 (h4.trans hrd)).before rfl h1 (Nat.le_refl 6)) (by omega)
      · exact weaken (last hi ht hu hp hrd) (by omega)
  · cases op with
    | get k tok => exact weaken (finishes_get ht) (by omega)
    | «mut» m => exact weaken (finishes_mut ht (hmut ht)) (by omega)
  · exact weaken (finishes_done ht) (by omega)

/-- Steps a thread still has to make. -/
def stepsLeft (s : Threads ι) (t : Nat) : Nat :=
  match s.th t with
  | .idle => 0
  | .waiting _ => 4
  | .inside (.get _ _) => 2
  | .inside (.mut _) => if s.inst.phase = .send then 2 else 3
  | .done _ => 1

/-- The call of `t` is under way. -/
def UnderWay (s : Threads ι) (t : Nat) (op : Op) : Prop := s.th t = .waiting op ∨ s.th t = .inside op ∨ ∃ r, s.th t = .done r

theorem stepsLeft_step {codecs : ι → Codec} {s s' : Threads ι} {e : TEv ι} {v : Option (HEv Op Res)} (hi : LockInv s)
    (hs : step codecs s e = some (s', v)) {t : Nat} {op : Op} (hop : op ≠ .mut .clear) (ht : UnderWay s t op) :
    (∃ r, v = some (.res t r)) ∨ (UnderWay s' t op ∧ stepsLeft s' t + (if e.isBy t then 1 else 0) ≤ stepsLeft s t) := by
  have hmut : ∀ {m : Mutation}, s.th t = .inside (.mut m) → (∃ j, s.inst.phase = .push j) ∨ s.inst.phase = .send := by
    intro m hu
    obtain ⟨m', h1, h2⟩ := hi.held t (hi.ins t m hu)
    rw [hu] at h1; injection h1 with h1; injection h1 with h1; subst h1
    refine h2 ?_
    rintro rfl
    rcases ht with ht | ht | ⟨r, ht⟩
    · rw [ht] at hu; cases hu
    · rw [ht] at hu; injection hu with hu; exact hop hu
    · rw [ht] at hu; cases hu
  have keep : ∀ {s' : Threads ι}, s'.th t = s.th t → (∀ m, s.th t = .inside (.mut m) → s'.inst.phase = s.inst.phase) →
      UnderWay s' t op ∧ stepsLeft s' t ≤ stepsLeft s t := by
    intro s' h1 h2
    refine ⟨by unfold UnderWay; rw [h1]; exact ht, ?_⟩
    unfold stepsLeft
    rw [h1]
    cases hth : s.th t with
    | inside op' =>
      cases op' with
      | get k tok => exact Nat.le_refl _
      | «mut» m => simp only [h2 m hth]; exact Nat.le_refl _
    | _ => exact Nat.le_refl _
  cases e with
  | call u op' =>
    simp only [step] at hs
    split at hs
    · rename_i hc
      injection hs with hs; injection hs with h1 h2; subst h1 h2
      have hut : u ≠ t := by
        rintro rfl
        rcases ht with ht | ht | ⟨r, ht⟩ <;> rw [hc.1] at ht <;> cases ht
      right
      have := keep (s' := s.goto u (.waiting op')) (goto_other _ _ (Ne.symm hut)) (fun _ _ => rfl)
      simpa [TEv.isBy, hut] using this
    · cases hs
  | lock u =>
    right
    simp only [step] at hs
    cases hth : s.th u with
    | idle => simp [hth] at hs
    | inside op => simp [hth] at hs
    | done r => simp [hth] at hs
    | waiting op' =>
      by_cases hut : u = t
      · subst hut
        have hopp : op' = op := by
          rcases ht with ht | ht | ⟨r, ht⟩ <;> rw [hth] at ht
          · injection ht
          · cases ht
          · cases ht
        subst hopp
        cases op' with
        | get k tok =>
          simp only [hth] at hs
          split at hs
          · injection hs with hs; injection hs with h1 h2; subst h1 h2
            refine ⟨.inr (.inl (goto_self _ _ _)), ?_⟩
            simp only [stepsLeft, hth, TEv.isBy, beq_self_eq_true, if_true]
            rw [show (s.goto u (.inside (.get k tok))).th u = _ from goto_self _ _ _]
            simp
          · cases hs
        | «mut» m =>
          simp only [hth] at hs
          split at hs
          · split at hs
            · cases hs
            · injection hs with hs; injection hs with h1 h2; subst h1 h2
              refine ⟨.inr (.inl (goto_self _ _ _)), ?_⟩
              simp only [stepsLeft, hth, TEv.isBy, beq_self_eq_true, if_true]
              rw [show (s.goto u (.inside (.mut m))).th u = _ from goto_self _ _ _]
              simp only
              split <;> omega
            · rename_i x r hx
              injection hs with hs; injection hs with h1 h2; subst h1 h2
              refine ⟨.inr (.inr ⟨_, goto_self _ _ _⟩), ?_⟩
              simp only [stepsLeft, hth, TEv.isBy, beq_self_eq_true, if_true]
              rw [show (s.goto u (.done (resOf r))).th u = _ from goto_self _ _ _]
              simp
          · cases hs
      · have hby : (TEv.lock u : TEv ι).isBy t = false := by simp [TEv.isBy, hut]
        rw [hby]
        cases op' with
        | get k tok =>
          simp only [hth] at hs
          split at hs
          · injection hs with hs; injection hs with h1 h2; subst h1 h2
            exact keep (goto_other _ _ (Ne.symm hut)) (fun _ _ => rfl)
          · cases hs
        | «mut» m =>
          simp only [hth] at hs
          split at hs
          · rename_i ho
            have hno : ∀ m', s.th t ≠ .inside (.mut m') := by
              intro m' h
              have := hi.ins t m' h
              rw [ho.1] at this; cases this
            split at hs
            · cases hs
            · injection hs with hs; injection hs with h1 h2; subst h1 h2
              exact keep (goto_other _ _ (Ne.symm hut)) (fun m' h => absurd h (hno m'))
            · injection hs with hs; injection hs with h1 h2; subst h1 h2
              exact keep (goto_other _ _ (Ne.symm hut)) (fun m' h => absurd h (hno m'))
          · cases hs
  | work u i =>
    right
    simp only [step] at hs
    cases hth : s.th u with
    | idle => simp [hth] at hs
    | waiting op => simp [hth] at hs
    | done r => simp [hth] at hs
    | inside op' =>
      by_cases hut : u = t
      · subst hut
        have hopp : op' = op := by
          rcases ht with ht | ht | ⟨r, ht⟩ <;> rw [hth] at ht
          · cases ht
          · injection ht
          · cases ht
        subst hopp
        cases op' with
        | get k tok =>
          simp only [hth] at hs
          injection hs with hs; injection hs with h1 h2; subst h1 h2
          refine ⟨.inr (.inr ⟨_, goto_self _ _ _⟩), ?_⟩
          simp only [stepsLeft, hth, TEv.isBy, beq_self_eq_true, if_true]
          rw [show (s.goto u (.done (s.inst.getAs k tok fun bs => .ok (some bs)))).th u = _ from goto_self _ _ _]
          simp
        | «mut» m =>
          simp only [hth] at hs
          rcases hmut hth with ⟨j, hp⟩ | hp
          · rw [(api_phase i).1 j hp] at hs
            simp only at hs
            injection hs with hs; injection hs with h1 h2; subst h1 h2
            refine ⟨.inr (.inl hth), ?_⟩
            simp [stepsLeft, hth, TEv.isBy, hp]
          · obtain ⟨r, hr⟩ := (api_phase (codecs := codecs) i).2 hp
            rw [hr] at hs
            simp only at hs
            injection hs with hs; injection hs with h1 h2; subst h1 h2
            refine ⟨.inr (.inr ⟨_, goto_self _ _ _⟩), ?_⟩
            simp only [stepsLeft, hth, hp, TEv.isBy, beq_self_eq_true, if_true]
            rw [show (s.goto u (.done (resOf r))).th u = _ from goto_self _ _ _]
            simp
      · have hby : (TEv.work u i : TEv ι).isBy t = false := by simp [TEv.isBy, hut]
        rw [hby]
        cases op' with
        | get k tok =>
          simp only [hth] at hs
          injection hs with hs; injection hs with h1 h2; subst h1 h2
          exact keep (goto_other _ _ (Ne.symm hut)) (fun _ _ => rfl)
        | «mut» m =>
          have hno : ∀ m', s.th t ≠ .inside (.mut m') := by
            intro m' h
            have h1 := hi.ins t m' h
            rw [hi.ins u m hth] at h1
            injection h1 with h1; exact hut h1
          simp only [hth] at hs
          split at hs
          · cases hs
          · injection hs with hs; injection hs with h1 h2; subst h1 h2
            exact keep rfl (fun m' h => absurd h (hno m'))
          · injection hs with hs; injection hs with h1 h2; subst h1 h2
            exact keep (goto_other _ _ (Ne.symm hut)) (fun m' h => absurd h (hno m'))
  | ret u =>
    simp only [step] at hs
    cases hth : s.th u with
    | idle => simp [hth] at hs
    | waiting op => simp [hth] at hs
    | inside op => simp [hth] at hs
    | done r =>
      simp only [hth] at hs
      injection hs with hs; injection hs with h1 h2; subst h1 h2
      by_cases hut : u = t
      · subst hut; exact .inl ⟨r, rfl⟩
      · right
        have := keep (s' := s.goto u .idle) (goto_other _ _ (Ne.symm hut)) (fun _ _ => rfl)
        simpa [TEv.isBy, hut] using this
  | io o =>
    right
    simp only [step] at hs
    split at hs
    · cases hs
    · rename_i x r hx
      injection hs with hs; injection hs with h1 h2; subst h1 h2
      exact keep rfl (fun _ _ => (step_io_phase hx).1)

/-- **C82**, few steps: whatever all other threads and the background thread do meanwhile, a `put`, `get` or `delete` that is waiting
for the lock has returned when its thread has made four steps: taking the lock, queueing the job, signalling, returning. -/
theorem C82_steps {codecs : ι → Codec} {i : ι} {page : Nat} {file : Bytes} {u : Nat} {q : Option Nat} {s0 : Inst ι} {s : Threads ι}
    {es : List (TEv ι)} {h : List (HEv Op Res)} (hopen : openAt codecs i page file u q = some s0)
    (hrun : run codecs { inst := s0 } es = some (s, h)) {t : Nat} {op : Op} (hop : op ≠ .mut .clear) (ht : s.th t = .waiting op)
    {es' : List (TEv ι)} {s' : Threads ι} {h' : List (HEv Op Res)} (hrun' : run codecs s es' = some (s', h'))
    (hmany : 4 ≤ es'.countP (·.isBy t)) : ∃ r, .res t r ∈ h' := by
  have hi := lockInv_run es (lockInv_start hopen) hrun
  have key : ∀ (es' : List (TEv ι)) (s : Threads ι) (h' : List (HEv Op Res)), LockInv s → UnderWay s t op → run codecs s es' = some (s', h') →
      (∃ r, .res t r ∈ h') ∨ (UnderWay s' t op ∧ stepsLeft s' t + es'.countP (·.isBy t) ≤ stepsLeft s t) := by
    intro es'
    induction es' with
    | nil =>
      intro s h' _ hu hr
      simp only [run, Option.some.injEq, Prod.mk.injEq] at hr
      obtain ⟨rfl, rfl⟩ := hr
      exact .inr ⟨hu, by simp⟩
    | cons e es' ih =>
      intro s h' hi hu hr
      simp only [run] at hr
      split at hr
      · cases hr
      · rename_i x v hx
        split at hr
        · cases hr
        · rename_i y g hy
          injection hr with hr; injection hr with g1 g2; subst g1 g2
          rcases stepsLeft_step hi hx hop hu with ⟨r, rfl⟩ | ⟨h1, h2⟩
          · exact .inl ⟨r, by simp⟩
          · rcases ih x g (lockInv_step hi hx) h1 hy with ⟨r, hr⟩ | ⟨h3, h4⟩
            · exact .inl ⟨r, List.mem_append_right _ hr⟩
            · refine .inr ⟨h3, ?_⟩
              rw [List.countP_cons]
              split at h2 <;> split <;> simp_all <;> omega
  rcases key es' s h' hi (.inl ht) hrun' with hr | ⟨h1, h2⟩
  · exact hr
  · have h4 : stepsLeft s t = 4 := by simp [stepsLeft, ht]
    rw [h4] at h2
    rcases h1 with h1 | h1 | ⟨r, h1⟩
    · simp [stepsLeft, h1] at h2; omega
    · cases op with
      | get k tok => simp [stepsLeft, h1] at h2; omega
      | «mut» m => simp only [stepsLeft, h1] at h2; split at h2 <;> omega
    · simp [stepsLeft, h1] at h2; omega

/-- **C82**, no file access: a step of a call - `clear_data` aside - does not change the file, its mapping, or anything else the background
thread works on. -/
theorem C82_no_file_access {codecs : ι → Codec} {i : ι} {page : Nat} {file : Bytes} {u : Nat} {q : Option Nat} {s0 : Inst ι} {s s' : Threads ι}
    {es : List (TEv ι)} {h : List (HEv Op Res)} {e : TEv ι} {v : Option (HEv Op Res)} (hopen : openAt codecs i page file u q = some s0)
    (hrun : run codecs { inst := s0 } es = some (s, h)) (hs : step codecs s e = some (s', v)) (hnc : ¬ s.Clearing) (hnc' : ¬ s'.Clearing)
    (hio : ∀ o, e ≠ .io o) : s'.inst.lp.cb = s.inst.lp.cb ∧ s'.inst.disk = s.inst.disk := by
  have hi := lockInv_run es (lockInv_start hopen) hrun
  have hcb : s'.inst.lp.cb = s.inst.lp.cb := by
    cases e with
    | call u op' =>
      simp only [step] at hs
      split at hs
      · injection hs with hs; injection hs with h1 h2; subst h1 h2; rfl
      · cases hs
    | lock u =>
      simp only [step] at hs
      cases hth : s.th u with
      | idle => simp [hth] at hs
      | inside op => simp [hth] at hs
      | done r => simp [hth] at hs
      | waiting op' =>
        cases op' with
        | get k tok =>
          simp only [hth] at hs
          split at hs
          · injection hs with hs; injection hs with h1 h2; subst h1 h2; rfl
          · cases hs
        | «mut» m =>
          simp only [hth] at hs
          split at hs
          · rename_i ho
            split at hs
            · cases hs
            · rename_i x hx
              injection hs with hs; injection hs with h1 h2; subst h1 h2
              have hm : m ≠ .clear := by rintro rfl; exact hnc' ⟨u, goto_self _ _ _⟩
              show x.lp.cb = _
              rw [(begin_phase (hi.free ho.1) hx).2.2 hm]
            · rename_i x r hx
              injection hs with hs; injection hs with h1 h2; subst h1 h2
              show x.lp.cb = _
              cases m with
              | clear =>
                simp only [evOf, Inst.step, hi.free ho.1] at hx
                simp only [ne_eq, not_true_eq_false, if_false] at hx
                split at hx
                · injection hx with hx; injection hx with h1 h2; subst h1; rfl
                · split at hx <;> (injection hx with hx; injection hx with h1 h2; cases h2)
              | put k e => rw [(begin_phase (hi.free ho.1) hx).2.2 (by simp)]
              | delete k => rw [(begin_phase (hi.free ho.1) hx).2.2 (by simp)]
          · cases hs
    | work u i =>
      simp only [step] at hs
      cases hth : s.th u with
      | idle => simp [hth] at hs
      | waiting op => simp [hth] at hs
      | done r => simp [hth] at hs
      | inside op' =>
        cases op' with
        | get k tok =>
          simp only [hth] at hs
          injection hs with hs; injection hs with h1 h2; subst h1 h2; rfl
        | «mut» m =>
          have hm : m ≠ .clear := by rintro rfl; exact hnc ⟨u, hth⟩
          simp only [hth] at hs
          obtain ⟨m', h1, h2⟩ := hi.held u (hi.ins u m hth)
          rw [hth] at h1; injection h1 with h1; injection h1 with h1; subst h1
          rcases h2 hm with ⟨j, hp⟩ | hp
          · rw [(api_phase i).1 j hp] at hs
            simp only at hs
            injection hs with hs; injection hs with h1 h2; subst h1 h2
            show (Looper.push s.inst.lp j).cb = _
            unfold Looper.push; split <;> rfl
          · obtain ⟨r, hr⟩ := (api_phase (codecs := codecs) i).2 hp
            rw [hr] at hs
            simp only at hs
            injection hs with hs; injection hs with h1 h2; subst h1 h2
            show (Looper.send s.inst.lp).1.cb = _
            unfold Looper.send; split
            · split <;> rfl
            · rfl
    | ret u =>
      simp only [step] at hs
      cases hth : s.th u with
      | idle => simp [hth] at hs
      | waiting op => simp [hth] at hs
      | inside op => simp [hth] at hs
      | done r =>
        simp only [hth] at hs
        injection hs with hs; injection hs with h1 h2; subst h1 h2; rfl
    | io o => exact absurd rfl (hio o)
  exact ⟨hcb, by simp [Inst.disk, hcb]⟩

/-! ### clear_data does wait -/

/-- The store while its background thread has never run. -/
structure Stalled (s : Inst ι) : Prop where
  io : s.lp.io = .recv
  poisoned : s.poisoned = false
  valid : s.phase = .idle → s.valid = true
  sender : s.phase ≠ .clrJoin → s.lp.sender = true
  phase : s.phase = .idle ∨ (∃ j, s.phase = .push j) ∨ s.phase = .send ∨ s.phase = .clrPush ∨ s.phase = .clrSend ∨ s.phase = .clrQuit ∨ s.phase = .clrJoin
  put : (∃ j, s.phase = .push j) ∨ s.phase = .send → s.valid = true

theorem stalled_begin {codecs : ι → Codec} {s s' : Inst ι} {m : Mutation} {r : Option (Out Unit)} (h : Stalled s) (hp : s.phase = .idle)
    (hs : Inst.step codecs s (evOf m) = some (s', r)) : Stalled s' ∧ (m = .clear → r = none ∧ s'.phase = .clrPush) := by
  obtain ⟨h1, h2, h3, h4, h5, h6⟩ := h
  have hv := h3 hp
  have hsd := h4 (by simp [hp])
  cases m with
  | put k e =>
    simp only [evOf, Inst.step, hp, h2, hv] at hs
    split at hs
    · cases hs
    simp at hs
    obtain ⟨rfl, rfl⟩ := hs
    exact ⟨⟨h1, rfl, fun _ => rfl, fun _ => hsd, .inr (.inl ⟨_, rfl⟩), fun _ => rfl⟩, by simp⟩
  | delete k =>
    simp only [evOf, Inst.step, hp, h2, hv] at hs
    simp at hs
    split at hs
    · simp at hs
      obtain ⟨rfl, rfl⟩ := hs
      exact ⟨⟨h1, h2, h3, h4, h5, h6⟩, by simp⟩
    · simp at hs
      obtain ⟨rfl, rfl⟩ := hs
      exact ⟨⟨h1, rfl, fun _ => rfl, fun _ => hsd, .inr (.inl ⟨_, rfl⟩), fun _ => rfl⟩, by simp⟩
  | clear =>
    simp only [evOf, Inst.step, hp, h2, hv] at hs
    simp at hs
    obtain ⟨rfl, rfl⟩ := hs
    exact ⟨⟨h1, rfl, by simp, fun _ => hsd, by simp, by simp⟩, by simp⟩

theorem stalled_api {codecs : ι → Codec} {s s' : Inst ι} {i : ι} {r : Option (Out Unit)} (h : Stalled s)
    (hs : Inst.step codecs s (.api i) = some (s', r)) :
    Stalled s' ∧ ((s.phase = .clrPush ∨ s.phase = .clrSend ∨ s.phase = .clrQuit ∨ s.phase = .clrJoin) →
      r = none ∧ (s'.phase = .clrSend ∨ s'.phase = .clrQuit ∨ s'.phase = .clrJoin)) := by
  obtain ⟨h1, h2, h3, h4, h5, h6⟩ := h
  rcases h5 with hp | ⟨j, hp⟩ | hp | hp | hp | hp | hp
  · simp [Inst.step, hp] at hs
  · have hsd := h4 (by simp [hp])
    simp [Inst.step, hp] at hs
    obtain ⟨rfl, rfl⟩ := hs
    refine ⟨⟨?_, h2, by simp, fun _ => ?_, by simp, fun _ => h6 (.inl ⟨j, hp⟩)⟩, by simp [hp]⟩ <;> simp [Looper.push, hsd, h1]
  · have hsd := h4 (by simp [hp])
    simp [Inst.step, hp] at hs
    obtain ⟨rfl, rfl⟩ := hs
    refine ⟨⟨?_, h2, fun _ => h6 (.inr hp), fun _ => ?_, by simp, by simp⟩, by simp [hp]⟩ <;> simp [Looper.send, hsd, h1]
  · have hsd := h4 (by simp [hp])
    simp [Inst.step, hp] at hs
    obtain ⟨rfl, rfl⟩ := hs
    refine ⟨⟨?_, h2, by simp, fun _ => ?_, by simp, by simp⟩, by simp⟩ <;> simp [Looper.push, hsd, h1]
  · have hsd := h4 (by simp [hp])
    simp [Inst.step, hp, Looper.send, hsd, h1] at hs
    obtain ⟨rfl, rfl⟩ := hs
    exact ⟨⟨rfl, h2, by simp, fun _ => rfl, by simp, by simp⟩, by simp⟩
  · have hsd := h4 (by simp [hp])
    simp [Inst.step, hp, Looper.quitSend, hsd, h1] at hs
    obtain ⟨rfl, rfl⟩ := hs
    exact ⟨⟨rfl, h2, by simp, by simp, by simp, by simp⟩, by simp⟩
  · simp [Inst.step, hp, h1] at hs

/-- The threads while the background thread has never run: whoever is inside `clear_data` has not got beyond the join. -/
def StalledT (s : Threads ι) : Prop :=
  LockInv s ∧ Stalled s.inst ∧ ∀ t, s.th t = .inside (.mut .clear) →
    s.inst.phase = .clrPush ∨ s.inst.phase = .clrSend ∨ s.inst.phase = .clrQuit ∨ s.inst.phase = .clrJoin

theorem stalledT_step {codecs : ι → Codec} {s s' : Threads ι} {e : TEv ι} {v : Option (HEv Op Res)} (h : StalledT s)
    (hio : ∀ o, e ≠ .io o) (hs : step codecs s e = some (s', v)) :
    StalledT s' ∧ ∀ t, s.th t = .inside (.mut .clear) → s'.th t = .inside (.mut .clear) := by
  have hi' := lockInv_step h.1 hs
  obtain ⟨hi, hst, hcl⟩ := h
  cases e with
  | call u op' =>
    simp only [step] at hs
    split at hs
    · rename_i hc
      injection hs with hs; injection hs with h1 h2; subst h1 h2
      refine ⟨⟨hi', hst, fun t ht => hcl t ?_⟩, fun t ht => ?_⟩
      · by_cases hut : t = u
        · subst hut; rw [goto_self] at ht; cases ht
        · rwa [goto_other _ _ hut] at ht
      · rw [goto_other _ _ (by rintro rfl; rw [hc.1] at ht; cases ht)]; exact ht
    · cases hs
  | lock u =>
    simp only [step] at hs
    cases hth : s.th u with
    | idle => simp [hth] at hs
    | inside op => simp [hth] at hs
    | done r => simp [hth] at hs
    | waiting op' =>
      cases op' with
      | get k tok =>
        simp only [hth] at hs
        split at hs
        · injection hs with hs; injection hs with h1 h2; subst h1 h2
          refine ⟨⟨hi', hst, fun t ht => hcl t ?_⟩, fun t ht => ?_⟩
          · by_cases hut : t = u
            · subst hut
              exact absurd ((show (s.goto t (.inside (.get k tok))).th t = _ from goto_self _ _ _).symm.trans ht) (by simp)
            · exact ((show (s.goto u (.inside (.get k tok))).th t = _ from goto_other _ _ hut).symm.trans ht)
          · exact (show (s.goto u (.inside (.get k tok))).th t = _ from goto_other _ _ (by rintro rfl; rw [hth] at ht; cases ht)).trans ht
        · cases hs
      | «mut» m =>
        simp only [hth] at hs
        split at hs
        · rename_i ho
          have hno : ∀ t, s.th t ≠ .inside (.mut .clear) := by
            intro t h
            have := hi.ins t _ h
            rw [ho.1] at this; cases this
          split at hs
          · cases hs
          · rename_i x hx
            injection hs with hs; injection hs with h1 h2; subst h1 h2
            obtain ⟨g1, g2⟩ := stalled_begin hst (hi.free ho.1) hx
            refine ⟨⟨hi', g1, fun t ht => ?_⟩, fun t ht => absurd ht (hno t)⟩
            by_cases hut : t = u
            · subst hut
              have hm := (show (s.goto t (.inside (.mut m))).th t = _ from goto_self _ _ _).symm.trans ht
              simp only [TSt.inside.injEq, Op.mut.injEq] at hm
              exact .inl (g2 hm).2
            · exact absurd ((show (s.goto u (.inside (.mut m))).th t = _ from goto_other _ _ hut).symm.trans ht) (hno t)
          · rename_i x r hx
            injection hs with hs; injection hs with h1 h2; subst h1 h2
            obtain ⟨g1, g2⟩ := stalled_begin hst (hi.free ho.1) hx
            refine ⟨⟨hi', g1, fun t ht => ?_⟩, fun t ht => absurd ht (hno t)⟩
            by_cases hut : t = u
            · subst hut
              exact absurd ((show (s.goto t (.done (resOf r))).th t = _ from goto_self _ _ _).symm.trans ht) (by simp)
            · exact absurd ((show (s.goto u (.done (resOf r))).th t = _ from goto_other _ _ hut).symm.trans ht) (hno t)
        · cases hs
  | work u i =>
    simp only [step] at hs
    cases hth : s.th u with
    | idle => simp [hth] at hs
    | waiting op => simp [hth] at hs
    | done r => simp [hth] at hs
    | inside op' =>
      cases op' with
      | get k tok =>
        simp only [hth] at hs
        injection hs with hs; injection hs with h1 h2; subst h1 h2
        generalize s.inst.getAs k tok (fun bs => Out.ok (some bs)) = r at hi' ⊢
        refine ⟨⟨hi', hst, fun t ht => hcl t ?_⟩, fun t ht => ?_⟩
        · by_cases hut : t = u
          · subst hut
            exact absurd ((show (s.goto t (.done r)).th t = _ from goto_self _ _ _).symm.trans ht) (by simp)
          · exact ((show (s.goto u (.done r)).th t = _ from goto_other _ _ hut).symm.trans ht)
        · exact (show (s.goto u (.done r)).th t = _ from goto_other _ _ (by rintro rfl; rw [hth] at ht; cases ht)).trans ht
      | «mut» m =>
        simp only [hth] at hs
        have howner := hi.ins u m hth
        have honly : ∀ t, s.th t = .inside (.mut .clear) → t = u := by
          intro t h
          have := hi.ins t _ h
          rw [howner] at this; injection this with this; exact this.symm
        split at hs
        · cases hs
        · rename_i x hx
          injection hs with hs; injection hs with h1 h2; subst h1 h2
          obtain ⟨g1, g2⟩ := stalled_api hst hx
          refine ⟨⟨hi', g1, fun t ht => ?_⟩, fun t ht => ht⟩
          exact .inr (g2 (hcl t ht)).2
        · rename_i x r hx
          injection hs with hs; injection hs with h1 h2; subst h1 h2
          obtain ⟨g1, g2⟩ := stalled_api hst hx
          have hno : ∀ t, s.th t ≠ .inside (.mut .clear) := by
            intro t h
            have := (g2 (hcl t h)).1
            cases this
          refine ⟨⟨hi', g1, fun t ht => ?_⟩, fun t ht => absurd ht (hno t)⟩
          by_cases hut : t = u
          · subst hut
            exact absurd ((show (s.goto t (.done (resOf r))).th t = _ from goto_self _ _ _).symm.trans ht) (by simp)
          · exact absurd ((show (s.goto u (.done (resOf r))).th t = _ from goto_other _ _ hut).symm.trans ht) (hno t)
  | ret u =>
    simp only [step] at hs
    cases hth : s.th u with
    | idle => simp [hth] at hs
    | waiting op => simp [hth] at hs
    | inside op => simp [hth] at hs
    | done r =>
      simp only [hth] at hs
      injection hs with hs; injection hs with h1 h2; subst h1 h2
      refine ⟨⟨hi', hst, fun t ht => hcl t ?_⟩, fun t ht => ?_⟩
      · by_cases hut : t = u
        · subst hut; rw [goto_self] at ht; cases ht
        · rwa [goto_other _ _ hut] at ht
      · rw [goto_other _ _ (by rintro rfl; rw [hth] at ht; cases ht)]; exact ht
  | io o => exact absurd rfl (hio o)

theorem stalledT_run {codecs : ι → Codec} (es : List (TEv ι)) {s s' : Threads ι} {h : List (HEv Op Res)} (hi : StalledT s)
    (hio : ∀ o, TEv.io o ∉ es) (hs : run codecs s es = some (s', h)) :
    StalledT s' ∧ ∀ t, s.th t = .inside (.mut .clear) → s'.th t = .inside (.mut .clear) := by
  induction es generalizing s h with
  | nil => simp only [run, Option.some.injEq, Prod.mk.injEq] at hs; rw [← hs.1]; exact ⟨hi, fun _ h => h⟩
  | cons e es ih =>
    simp only [run] at hs
    split at hs
    · cases hs
    · rename_i s1 v h1
      split at hs
      · cases hs
      · rename_i s2 h2 hr
        injection hs with hs; injection hs with g1 g2; subst g1
        obtain ⟨k1, k2⟩ := stalledT_step hi (fun o ho => hio o (by simp [ho])) h1
        obtain ⟨k3, k4⟩ := ih k1 (fun o ho => hio o (List.mem_cons_of_mem _ ho)) hr
        exact ⟨k3, fun t ht => k4 t (k2 t ht)⟩

/-- **C82**, the exception: `clear_data` waits for the background thread.  As long as that does not run, a `clear_data` that has the lock
keeps it and does not return, whatever else happens. -/
theorem C82_clear_waits {codecs : ι → Codec} {i : ι} {page : Nat} {file : Bytes} {u : Nat} {q : Option Nat} {s0 : Inst ι} {s s' : Threads ι}
    {es es' : List (TEv ι)} {h h' : List (HEv Op Res)} (hopen : openAt codecs i page file u q = some s0)
    (hrun : run codecs { inst := s0 } es = some (s, h)) (hio : ∀ o, TEv.io o ∉ es) {t : Nat} (ht : s.th t = .inside (.mut .clear))
    (hrun' : run codecs s es' = some (s', h')) (hio' : ∀ o, TEv.io o ∉ es') : s'.th t = .inside (.mut .clear) ∧ s'.owner = some t := by
  have hstart : StalledT ({ inst := s0 } : Threads ι) := by
    refine ⟨lockInv_start hopen, ?_, fun t h => by cases h⟩
    unfold openAt at hopen
    split at hopen
    · cases hopen
    · injection hopen with hopen; subst hopen
      exact ⟨rfl, rfl, fun _ => rfl, fun _ => rfl, .inl rfl, fun _ => rfl⟩
  obtain ⟨h1, _⟩ := stalledT_run es hstart hio hrun
  obtain ⟨h2, h3⟩ := stalledT_run es' h1 hio' hrun'
  exact ⟨h3 t ht, h2.1.ins t _ (h3 t ht)⟩

/-! ### Non-vacuity -/

/-- The background thread never runs: thread 0 puts, thread 1 reads and is in the middle, thread 2 waits to delete, thread 3 waits to
read. -/
def stallDemo : List (TEv Unit) :=
  [.call 0 (.mut (.put "a" ⟨6, [7]⟩)), .lock 0, .work 0 (), .work 0 (), .ret 0, .call 1 (.get "a" 6), .lock 1,
   .call 2 (.mut (.delete "a")), .call 3 (.get "a" 6)]

/-- The hypotheses of `C82_no_wait` and `C82_steps` are met by thread 2, which waits while thread 1 has the lock. -/
example : ((openAt plain () 64 []).bind fun s0 => (run plain { inst := s0 } stallDemo).map fun p =>
    decide (p.1.th 2 = .waiting (.mut (.delete "a")) ∧ p.1.readers = [1] ∧ p.1.owner = none)) = some true := by decide +kernel

/-- ... and this is a way to complete it: thread 1 reads on, thread 2 deletes; five steps of calls, none of the background thread. -/
example : ((openAt plain () 64 []).bind fun s0 => (run plain { inst := s0 } (stallDemo ++ [.work 1 (), .lock 2, .work 2 (), .work 2 (), .ret 2])).map fun p =>
    decide (p.2.getLast? = some (.res 2 (.ok none)))) = some true := by decide +kernel

/-- The hypotheses of `C82_clear_waits` are met: thread 0 is inside `clear_data` and cannot go on, thread 1 cannot get the lock. -/
example : ((openAt plain () 64 []).bind fun s0 => (run plain { inst := s0 }
      [.call 0 (.mut .clear), .lock 0, .work 0 (), .work 0 (), .work 0 (), .call 1 (.get "a" 6)]).map fun p =>
    decide (p.1.th 0 = .inside (.mut .clear) ∧ p.1.inst.phase = .clrJoin) &&
      (step plain p.1 (.work 0 ())).isNone && (step plain p.1 (.lock 1)).isNone) = some true := by decide +kernel

end Mmkv.Threads
