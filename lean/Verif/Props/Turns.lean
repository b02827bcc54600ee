import Verif.Lemmas.Turns
import Verif.Props.Encrypt
/-!
# C63: several processes that take turns

README.md:18-19: the store may be shared between processes as long as there is no competing write.  The obvious reading:
if every `put` or `delete` of one process, with its background write, is over before another process begins anything,
then no acknowledged call is lost.
-/

namespace Mmkv
open Spec Inst

variable {ι : Type}

/-- The calls made in a history, in order, whatever came of them. -/
def Shared.asked : List (PEv ι) → List Mutation
  | [] => []
  | .on _ (.put k t bs) :: es => .put k ⟨t, bs⟩ :: asked es
  | .on _ (.delete k) :: es => .delete k :: asked es
  | _ :: es => asked es

/-- The calls of a history that the calling process could make sense of: all `put`s, and the `delete`s of keys the
process that deletes has itself read or written (it does not see those another process wrote since it opened the
file). -/
def Shared.sensible (codecs : ι → Codec) (page : Nat) : Shared ι → List (PEv ι) → List Mutation
  | _, [] => []
  | w, e :: es =>
    let now : List Mutation := match e with
      | .on _ (.put k t bs) => [.put k ⟨t, bs⟩]
      | .on p (.delete k) =>
        match w.procs[p]? with
        | none => []
        | some s => if s.getAs k 0 (fun _ => Out.ok ()) = .err .keyNotFound then [] else [.delete k]
      | _ => []
    now ++ match step codecs page w e with
      | none => []
      | some (w', _) => sensible codecs page w' es

instance decOthersRest (w : Shared ι) (p : Nat) : Decidable (w.OthersRest p) := by
  unfold Shared.OthersRest
  have : ∀ q, Decidable (q ≠ p → ∀ s, w.procs[q]? = some s → s.Resting) := by
    intro q
    cases h : w.procs[q]? with
    | none => exact .isTrue (by simp)
    | some s => exact decidable_of_iff (q ≠ p → s.Resting) (by simp)
  infer_instance

instance decMayStart (w : Shared ι) (e : PEv ι) : Decidable (w.MayStart e) := by
  cases e with
  | start i => exact inferInstanceAs (Decidable (∀ s ∈ w.procs, s.Resting))
  | on p e =>
    cases e with
    | put => exact decOthersRest w p
    | delete => exact decOthersRest w p
    | _ => exact .isTrue trivial

instance decTakeTurns (codecs : ι → Codec) (page : Nat) : (es : List (PEv ι)) → (w : Shared ι) →
    Decidable (Shared.TakeTurns codecs page w es)
  | [], _ => .isTrue trivial
  | e :: es, w => by
    unfold Shared.TakeTurns
    cases Shared.step codecs page w e with
    | none => exact inferInstanceAs (Decidable (_ ∧ True))
    | some p => exact @instDecidableAnd _ _ _ (decTakeTurns codecs page es p.1)

/-- Record sizes and hash map orders of a history. -/
def PEv.Sized : PEv ι → Prop
  | .start _ => True
  | .on _ e => e.Sized

/-- Record sizes below a page. -/
def PEv.Fits (page : Nat) : PEv Unit → Prop
  | .start _ => True
  | .on _ e => e.Fits page

/-! ### What holds -/

/-- What one of the processes still has to do. -/
def todoAt (ps : List (Inst Unit)) (a : Nat) : List Job :=
  match ps[a]? with
  | none => []
  | some s => s.todo

theorem todoAt_some {ps : List (Inst Unit)} {a : Nat} {s : Inst Unit} (h : ps[a]? = some s) : todoAt ps a = s.todo := by
  simp [todoAt, h]

theorem todoAt_snoc {ps : List (Inst Unit)} {s : Inst Unit} (h : s.todo = []) (a : Nat) : todoAt (ps ++ [s]) a = todoAt ps a := by
  rcases Nat.lt_trichotomy a ps.length with hlt | heq | hgt
  · simp only [todoAt, List.getElem?_append, hlt, if_true]
  · subst heq; simp [todoAt, h]
  · have h1 : (ps ++ [s])[a]? = none := List.getElem?_eq_none (by simp; omega)
    have h2 : ps[a]? = none := List.getElem?_eq_none (by omega)
    simp [todoAt, h1, h2]

theorem todoAt_set_ne {ps : List (Inst Unit)} {p a : Nat} {s : Inst Unit} (h : a ≠ p) : todoAt (ps.set p s) a = todoAt ps a := by
  simp only [todoAt, List.getElem?_set_ne (Ne.symm h)]

/-- Invariant of a shared plain file: what it holds, together with what the one active process still has to do, is what
was asked. -/
structure TInv (w : Shared Unit) (page : Nat) (cs : List Mutation) (content : Bytes) (items : List (Option Buffer)) (a : Nat) :
    Prop where
  holds : Holds w.file content
  framed : Framed crcCodec 0 content items
  ok : ∀ b, some b ∈ items → crcOk b
  procs : ∀ s ∈ w.procs, PInv s ∧ s.Live ∧ s.lp.cb.ws.usizeBytes = 8 ∧ 8 ≤ s.lp.cb.ws.mmLen ∧ s.lp.cb.ws.mmLen ≤ w.file.length
  rest : ∀ q, q ≠ a → ∀ s, w.procs[q]? = some s → s.todo = []
  store : (Store.empty.run (mutations items)).run
    ((todoAt w.procs a).map Job.mutation) = Store.empty.run cs

/-- The state of the history: nothing has happened yet, or the invariant holds. -/
def TOk (w : Shared Unit) (page : Nat) (cs : List Mutation) : Prop :=
  (w.file = [] ∧ w.procs = [] ∧ cs = []) ∨ ∃ content items a, TInv w page cs content items a

theorem effect_eq {s : Inst Unit} (h : PInv s) (k : String) (hl : s.Live) :
    (s.getAs k 0 (fun _ => Out.ok ()) = .err .keyNotFound) ↔ (s.kv.get k).isNone = true := by
  simp only [getAs, h.poisoned, h.valid, Bool.false_eq_true, if_false, Bool.true_eq_false]
  cases hk : s.kv.get k with
  | none => simp
  | some b =>
    have := hl k b hk
    by_cases ht : 0#32 = b.type <;> simp [Buffer.parseAs, Buffer.checkType, this, ht]

/-- Opening the shared file. -/
theorem tok_start {w w' : Shared Unit} {page : Nat} (h8 : 8 ≤ page) {cs : List Mutation} {r : Option (Out Unit)}
    (h : TOk w page cs) (hs : Shared.step plain page w (.start ()) = some (w', r)) : TOk w' page cs := by
  simp only [Shared.step] at hs
  split at hs
  · cases hs
  rename_i s ho
  simp only [Option.some.injEq, Prod.mk.injEq] at hs
  obtain ⟨rfl, rfl⟩ := hs
  have hlive := Inst.live_open ho
  unfold openAt at ho
  split at ho
  · cases ho
  rename_i o hos
  injection ho with ho
  have htodo : s.todo = [] := by rw [← ho]; rfl
  have hpinv : PInv s := by
    rw [← ho]
    exact ⟨rfl, rfl, .inl rfl, fun _ => rfl, by intro j hj; simp [todo, Looper.new, Phase.inflight] at hj⟩
  right
  rcases h with ⟨hf, hp, hc⟩ | ⟨content, items, a, h⟩
  · rw [hf] at hos
    have := openStore_nil (plain ()) page h8 none
    rw [hos] at this
    injection this with this
    refine ⟨[], [], 0, ?_, .nil _, by simp, ?_, ?_, ?_⟩
    · rw [← ho]; simp only [Looper.new, this]
      exact ⟨by simp, _, zeros_eq _ h8⟩
    · intro t ht
      rw [hp] at ht
      simp at ht
      subst ht
      refine ⟨hpinv, hlive, ?_, ?_, ?_⟩ <;> rw [← ho] <;> simp [Looper.new, this, zeros, h8]
    · intro q hq t ht
      rw [hp] at ht
      cases q with
      | zero => exact absurd rfl hq
      | succ q => simp at ht
    · rw [hp, todoAt_snoc htodo, hc]
      simp [todoAt, mutations, Store.run]
  · have hlen := h.holds.len
    have hfile : o.ws.file = w.file ∧ o.ws.mmLen = w.file.length ∧ o.ws.usizeBytes = 8 := by
      unfold openStore at hos
      have hcn : configNew page w.file = w.file := by unfold configNew; rw [if_neg (by omega)]
      simp only [hcn] at hos
      split at hos
      · cases hos
      · split at hos
        · cases hos
        · injection hos with hos
          subst hos
          exact ⟨rfl, rfl, rfl⟩
    have hsf : s.lp.cb.ws.file = w.file := by rw [← ho]; exact hfile.1
    refine ⟨content, items, a, ?_, h.framed, h.ok, ?_, ?_, ?_⟩
    · simp only [hsf]; exact h.holds
    · intro t ht
      simp only [hsf]
      rcases List.mem_append.1 ht with ht | ht
      · exact h.procs t ht
      · simp at ht
        subst ht
        refine ⟨hpinv, hlive, ?_, ?_, ?_⟩ <;> rw [← ho] <;> simp [Looper.new, hfile] <;> omega
    · intro q hq t ht
      simp only [List.getElem?_append] at ht
      split at ht
      · exact h.rest q hq t ht
      · rw [List.getElem?_singleton] at ht
        split at ht
        · injection ht with ht; subst ht; exact htodo
        · cases ht
    · simp only [todoAt_snoc htodo]
      exact h.store

/-- An event in a process, taken apart. -/
theorem step_on {w w' : Shared Unit} {page : Nat} {r : Option (Out Unit)} {p : Nat} {e : Ev Unit}
    (hs : Shared.step plain page w (.on p e) = some (w', r)) :
    e ≠ .clear ∧ ∃ s s1, w.procs[p]? = some s ∧ Inst.step plain (s.withFile w.file) e = some (s1, r) ∧
      w' = ⟨s1.lp.cb.ws.file, w.procs.set p s1⟩ := by
  refine ⟨by rintro rfl; simp [Shared.step] at hs, ?_⟩
  unfold Shared.step at hs
  split at hs
  · rename_i heq; cases heq
  · cases hs
  · rename_i heq
    injection heq with h1 h2
    subst h1 h2
    split at hs
    · cases hs
    · rename_i s hps
      split at hs
      · cases hs
      · rename_i s1 r1 hst
        simp only [Option.some.injEq, Prod.mk.injEq] at hs
        obtain ⟨rfl, rfl⟩ := hs
        exact ⟨s, s1, hps, hst, rfl⟩

theorem lt_of_some {α : Type} {l : List α} {p : Nat} {x : α} (h : l[p]? = some x) : p < l.length := by
  rcases Nat.lt_or_ge p l.length with h' | h'
  · exact h'
  · rw [List.getElem?_eq_none h'] at h; cases h

/-- All processes only put and delete. -/
def AllCalm (w : Shared Unit) : Prop := ∀ s ∈ w.procs, NoClear s

theorem open_calm {page : Nat} {file : Bytes} {s : Inst Unit} (ho : openAt plain () page file = some s) :
    NoClear s ∧ s.Unpanicked ∧ s.lp.cb.ws.mmLen = s.lp.cb.ws.file.length ∧ file.length ≤ s.lp.cb.ws.file.length := by
  unfold openAt at ho
  split at ho
  · cases ho
  rename_i o hos
  injection ho with ho
  subst ho
  refine ⟨⟨rfl, rfl, .inl rfl, by simp [todo, Looper.new, Phase.inflight]⟩, by simp [Unpanicked, Looper.new], ?_⟩
  unfold openStore at hos
  simp only at hos
  split at hos
  · cases hos
  · split at hos
    · cases hos
    · injection hos with hos
      subst hos
      refine ⟨rfl, ?_⟩
      simp only [Looper.new, configNew]
      split
      · omega
      · exact Nat.le_refl _

theorem calm_shared {w w' : Shared Unit} {page : Nat} {r : Option (Out Unit)} {e : PEv Unit} (h : AllCalm w)
    (hs : Shared.step plain page w e = some (w', r)) :
    AllCalm w' ∧ ((∀ s ∈ w'.procs, s.Unpanicked) → ∀ s ∈ w.procs, s.Unpanicked) := by
  cases e with
  | start i =>
    simp only [Shared.step] at hs
    split at hs
    · cases hs
    rename_i s ho
    simp only [Option.some.injEq, Prod.mk.injEq] at hs
    obtain ⟨rfl, rfl⟩ := hs
    refine ⟨?_, fun ha t ht => ha t (List.mem_append_left _ ht)⟩
    intro t ht
    rcases List.mem_append.1 ht with ht | ht
    · exact h t ht
    · simp at ht; subst ht; exact (open_calm ho).1
  | on p e =>
    obtain ⟨hne, s, s1, hps, hst, rfl⟩ := step_on hs
    have hc : NoClear s := h s (List.mem_of_getElem? hps)
    have hc' : NoClear (s.withFile w.file) := ⟨hc.valid, hc.poisoned, hc.phase, hc.jobs⟩
    refine ⟨?_, ?_⟩
    · intro t ht
      rcases List.mem_or_eq_of_mem_set ht with ht | rfl
      · exact h t ht
      · exact calm_step hc' hne hst
    · intro ha t ht
      by_cases hts : t = s
      · subst hts
        exact alive_step (s := t.withFile w.file) hc' hne hst
          (ha s1 (List.mem_of_getElem? (List.getElem?_set_self (lt_of_some hps))))
      · obtain ⟨q, hq⟩ := List.getElem?_of_mem ht
        refine ha t (List.mem_of_getElem? (i := q) ?_)
        rw [List.getElem?_set_ne ?_]
        · exact hq
        · rintro rfl
          rw [hps] at hq
          injection hq with hq
          exact hts hq.symm

/-- A thread that panics stays dead. -/
theorem calm_run {page : Nat} : ∀ (es : List (PEv Unit)) {w w' : Shared Unit} {rs : List (Out Unit)}, AllCalm w →
    Shared.run plain page w es = some (w', rs) → (∀ s ∈ w'.procs, s.Unpanicked) → ∀ s ∈ w.procs, s.Unpanicked := by
  intro es
  induction es with
  | nil =>
    intro w w' rs _ hr ha
    simp only [Shared.run, Option.some.injEq, Prod.mk.injEq] at hr
    obtain ⟨rfl, _⟩ := hr
    exact ha
  | cons e es ih =>
    intro w w' rs h hr ha
    simp only [Shared.run] at hr
    split at hr
    · cases hr
    rename_i w1 r1 hst
    split at hr
    · cases hr
    rename_i w2 rs2 hrun
    simp only [Option.some.injEq, Prod.mk.injEq] at hr
    obtain ⟨rfl, _⟩ := hr
    obtain ⟨h1, h2⟩ := calm_shared h hst
    exact h2 (ih h1 hrun ha)

/-- Without a panic the file never gets shorter. -/
theorem mono_run {page : Nat} : ∀ (es : List (PEv Unit)) {w w' : Shared Unit} {rs : List (Out Unit)}, AllCalm w →
    (∀ s ∈ w.procs, s.lp.cb.ws.mmLen ≤ w.file.length) →
    Shared.run plain page w es = some (w', rs) → (∀ s ∈ w'.procs, s.Unpanicked) → w.file.length ≤ w'.file.length := by
  intro es
  induction es with
  | nil =>
    intro w w' rs _ _ hr ha
    simp only [Shared.run, Option.some.injEq, Prod.mk.injEq] at hr
    obtain ⟨rfl, _⟩ := hr
    exact Nat.le_refl _
  | cons e es ih =>
    intro w w' rs h hmm hr ha
    simp only [Shared.run] at hr
    split at hr
    · cases hr
    rename_i w1 r1 hst
    split at hr
    · cases hr
    rename_i w2 rs2 hrun
    simp only [Option.some.injEq, Prod.mk.injEq] at hr
    obtain ⟨rfl, _⟩ := hr
    have hc1 := (calm_shared h hst).1
    have ha1 := calm_run es hc1 hrun ha
    have hstep : w.file.length ≤ w1.file.length ∧ ∀ s ∈ w1.procs, s.lp.cb.ws.mmLen ≤ w1.file.length := by
      cases e with
      | start i =>
        simp only [Shared.step] at hst
        split at hst
        · cases hst
        rename_i s ho
        simp only [Option.some.injEq, Prod.mk.injEq] at hst
        obtain ⟨rfl, rfl⟩ := hst
        obtain ⟨_, _, g1, g2⟩ := open_calm ho
        refine ⟨g2, ?_⟩
        intro t ht
        rcases List.mem_append.1 ht with ht | ht
        · exact Nat.le_trans (hmm t ht) g2
        · simp at ht; subst ht; exact Nat.le_of_eq g1
      | on p e =>
        obtain ⟨hne, s, s1, hps, hst', rfl⟩ := step_on hst
        have hc : NoClear s := h s (List.mem_of_getElem? hps)
        have hc' : NoClear (s.withFile w.file) := ⟨hc.valid, hc.poisoned, hc.phase, hc.jobs⟩
        obtain ⟨g1, g2⟩ := mono_step hc' hne (hmm s (List.mem_of_getElem? hps)) hst'
          (ha1 s1 (List.mem_of_getElem? (List.getElem?_set_self (lt_of_some hps))))
        have g1 : w.file.length ≤ s1.lp.cb.ws.file.length := g1
        refine ⟨g1, ?_⟩
        intro t ht
        rcases List.mem_or_eq_of_mem_set ht with ht | rfl
        · exact Nat.le_trans (hmm t ht) g1
        · exact g2
    exact Nat.le_trans hstep.1 (ih hc1 hstep.2 hrun ha)

/-- An event in one of the processes. -/
theorem tok_on {w w' : Shared Unit} {page : Nat} {cs : List Mutation} {r : Option (Out Unit)} {p : Nat} {e : Ev Unit}
    (h : TOk w page cs) (hm : w.MayStart (.on p e)) (hsz : e.Sized)
    (hs : Shared.step plain page w (.on p e) = some (w', r)) (ha : ∀ s ∈ w'.procs, s.Unpanicked) (hb : w'.file.length < 2 ^ 64) :
    TOk w' page (cs ++ (w.procs[p]?.bind fun s => s.effect e).toList) := by
  obtain ⟨hne, s, s1, hps, hst, rfl⟩ := step_on hs
  have hlt : p < w.procs.length := by
    rcases Nat.lt_or_ge p w.procs.length with h | h
    · exact h
    · rw [List.getElem?_eq_none h] at hps; cases hps
  have hmem : s ∈ w.procs := List.mem_of_getElem? hps
  rcases h with ⟨_, hp, _⟩ | ⟨content, items, a0, h⟩
  · rw [hp] at hmem; cases hmem
  -- the active process is `p` if the event starts a call
  have hcall : ∃ a, TInv w page cs content items a ∧ (a = p ∨ (s.effect e = none ∧ s.todo = [])) := by
    by_cases hap : a0 = p
    · exact ⟨a0, h, .inl hap⟩
    · by_cases hef : s.effect e = none
      · exact ⟨a0, h, .inr ⟨hef, h.rest p (fun x => hap x.symm) s hps⟩⟩
      · have hor : w.OthersRest p := by
          cases e with
          | put => exact hm
          | delete => exact hm
          | _ => exact absurd rfl hef
        have hrest : ∀ q, q ≠ p → ∀ t, w.procs[q]? = some t → t.todo = [] := by
          intro q hq t ht
          refine todo_resting (hor q ?_ hq t ht)
          rcases Nat.lt_or_ge q w.procs.length with h | h
          · exact h
          · rw [List.getElem?_eq_none h] at ht; cases ht
        have h1 : todoAt w.procs a0 = [] := by
          unfold todoAt
          split
          · rfl
          · rename_i t ht; exact hrest a0 hap t ht
        have h2 : todoAt w.procs p = [] := by
          rw [todoAt_some hps]; exact h.rest p (fun x => hap x.symm) s hps
        refine ⟨p, ⟨h.holds, h.framed, h.ok, h.procs, hrest, ?_⟩, .inl rfl⟩
        rw [h2, ← h.store, h1]
  obtain ⟨a, h, hact⟩ := hcall
  obtain ⟨hpi, hlv, husz, hmm8, hmm⟩ := h.procs s hmem
  have hpi' : PInv (s.withFile w.file) := ⟨hpi.valid, hpi.poisoned, hpi.phase, hpi.bufEmpty, hpi.jobs⟩
  have hv : SValid (s.withFile w.file).lp.cb.ws content items := ⟨husz, hmm8, hmm, h.holds, h.framed⟩
  have ha1 : s1.Unpanicked := ha s1 (List.mem_of_getElem? (List.getElem?_set_self hlt))
  obtain ⟨hp1, ht1, hl1, content', items', v', ok', heq⟩ := pinv_step hpi' hv h.ok hne hsz hst ha1 hb
  have hta : (s.withFile w.file).todo = s.todo := rfl
  have hea : (s.withFile w.file).effect e = s.effect e := by cases e <;> rfl
  rw [hta, hea] at heq ht1
  have hl1 : w.file.length ≤ s1.lp.cb.ws.file.length := hl1
  have hlive1 : s1.Live := Inst.live_step (s := s.withFile w.file) hlv hst
  refine .inr ⟨content', items', a, v'.holds, v'.framed, ok', ?_, ?_, ?_⟩
  · intro t ht
    rcases List.mem_or_eq_of_mem_set ht with ht | rfl
    · obtain ⟨g1, g2, g3, g4, g5⟩ := h.procs t ht
      exact ⟨g1, g2, g3, g4, Nat.le_trans g5 hl1⟩
    · exact ⟨hp1, hlive1, v'.usz, v'.mm8, v'.mm⟩
  · intro q hq t ht
    by_cases hqp : q = p
    · subst hqp
      rw [List.getElem?_set_self hlt] at ht
      injection ht with ht
      subst ht
      rcases hact with hact | ⟨he0, ht0⟩
      · exact absurd hact.symm hq
      · exact ht1 ht0 he0
    · rw [List.getElem?_set_ne (Ne.symm hqp)] at ht
      exact h.rest q hq t ht
  · rw [hps, run_append]
    simp only [Option.bind_some]
    rw [← h.store]
    by_cases hap : a = p
    · subst hap
      rw [todoAt_some (List.getElem?_set_self hlt), todoAt_some hps]
      exact heq
    · rcases hact with hact | ⟨he0, ht0⟩
      · exact absurd hact hap
      · have ht1' := ht1 ht0 he0
        rw [todoAt_set_ne hap, he0]
        rw [ht1', ht0, he0] at heq
        simp only [List.map_nil, Option.toList, Store.run, List.foldl_nil] at heq ⊢
        rw [heq]

/-- A whole history. -/
theorem tok_run {page : Nat} (h8 : 8 ≤ page) : ∀ (es : List (PEv Unit)) {w w' : Shared Unit} {cs : List Mutation}
    {rs : List (Out Unit)}, TOk w page cs → Shared.TakeTurns plain page w es → (∀ e ∈ es, e.Sized) →
    Shared.run plain page w es = some (w', rs) → (∀ s ∈ w'.procs, s.Unpanicked) → w'.file.length < 2 ^ 64 →
    TOk w' page (cs ++ Shared.sensible plain page w es) := by
  intro es
  induction es with
  | nil =>
    intro w w' cs rs h _ _ hr ha _
    simp only [Shared.run, Option.some.injEq, Prod.mk.injEq] at hr
    obtain ⟨rfl, _⟩ := hr
    simpa [Shared.sensible] using h
  | cons e es ih =>
    intro w w' cs rs h htt hsz hr ha hb
    simp only [Shared.run] at hr
    split at hr
    · cases hr
    rename_i w1 r1 hst
    split at hr
    · cases hr
    rename_i w2 rs2 hrun
    simp only [Option.some.injEq, Prod.mk.injEq] at hr
    obtain ⟨rfl, _⟩ := hr
    simp only [Shared.TakeTurns, hst] at htt
    obtain ⟨hms, htt⟩ := htt
    have hszt : ∀ e ∈ es, e.Sized := fun e he => hsz e (List.mem_cons_of_mem _ he)
    have hcalm : AllCalm w := by
      intro s hs
      rcases h with ⟨_, hp, _⟩ | ⟨_, _, _, h⟩
      · rw [hp] at hs; cases hs
      · exact (h.procs s hs).1.calm
    have hmm : ∀ s ∈ w.procs, s.lp.cb.ws.mmLen ≤ w.file.length := by
      intro s hs
      rcases h with ⟨_, hp, _⟩ | ⟨_, _, _, h⟩
      · rw [hp] at hs; cases hs
      · exact (h.procs s hs).2.2.2.2
    have hc1 := (calm_shared hcalm hst).1
    have ha1 := calm_run es hc1 hrun ha
    cases e with
    | start i =>
      have h1 := tok_start h8 h hst
      have := ih h1 htt hszt hrun ha hb
      simpa [Shared.sensible, hst] using this
    | on p e =>
      have hmm1 : ∀ s ∈ w1.procs, s.lp.cb.ws.mmLen ≤ w1.file.length := by
        obtain ⟨hne, s, s1, hps, hst', rfl⟩ := step_on hst
        have hc : NoClear s := hcalm s (List.mem_of_getElem? hps)
        have hc' : NoClear (s.withFile w.file) := ⟨hc.valid, hc.poisoned, hc.phase, hc.jobs⟩
        obtain ⟨g1, g2⟩ := mono_step hc' hne (hmm s (List.mem_of_getElem? hps)) hst'
          (ha1 s1 (List.mem_of_getElem? (List.getElem?_set_self (lt_of_some hps))))
        have g1 : w.file.length ≤ s1.lp.cb.ws.file.length := g1
        intro t ht
        rcases List.mem_or_eq_of_mem_set ht with ht | rfl
        · exact Nat.le_trans (hmm t ht) g1
        · exact g2
      have hb1 := mono_run es hc1 hmm1 hrun ha
      have h1 := tok_on h hms (hsz _ List.mem_cons_self) hst ha1 (by omega)
      have h2 := ih h1 htt hszt hrun ha hb
      have hnow : Shared.sensible plain page w (.on p e :: es) =
          (w.procs[p]?.bind fun s => s.effect e).toList ++ Shared.sensible plain page w1 es := by
        obtain ⟨hne, s, s1, hps, hst', _⟩ := step_on hst
        simp only [Shared.sensible, hst]
        congr 1
        cases e with
        | put => simp only [hps]; rfl
        | clear => exact absurd rfl hne
        | delete k =>
          simp only [hps, Option.bind_some, effect]
          have hpi : PInv s ∧ s.Live := by
            rcases h with ⟨_, hp, _⟩ | ⟨_, _, _, h⟩
            · rw [hp] at hps; cases hps
            · have := h.procs s (List.mem_of_getElem? hps)
              exact ⟨this.1, this.2.1⟩
          have := effect_eq hpi.1 k hpi.2
          by_cases hn : (s.kv.get k).isNone = true
          · rw [if_pos (this.2 hn), if_pos hn]; rfl
          · rw [if_neg (fun x => hn (this.1 x)), if_neg hn]; rfl
        | _ => simp only [hps]; rfl
      rw [hnow, ← List.append_assoc]
      exact h2

/-- Opening the file once all is at rest. -/
theorem tok_open {page : Nat} (h8 : 8 ≤ page) {w : Shared Unit} {cs : List Mutation} (h : TOk w page cs) (hrest : w.AllRest) :
    ∃ s', openAt plain () page w.file = some s' ∧ s'.Shows (Store.empty.run cs) := by
  rcases h with ⟨hf, _, hc⟩ | ⟨content, items, a, h⟩
  · rw [hf, hc]
    have ho := openStore_nil (plain ()) page h8 none
    refine ⟨_, by unfold openAt; rw [ho], ?_⟩
    rw [shows_open (codecs := plain) (i := ()) (page := page) (file := []) (by unfold openAt; rw [ho])]
    exact view_nil
  · have htodo : todoAt w.procs a = [] := by
      unfold todoAt
      split
      · rfl
      · rename_i s hs; exact todo_resting (hrest s (List.mem_of_getElem? hs))
    have hst := h.store
    rw [htodo] at hst
    have hlen := h.holds.len
    have hv : Valid crcCodec { file := w.file, mmLen := w.file.length, page := page, position := items.length, needTrim := false } content items :=
      ⟨rfl, rfl, h.holds, h.framed, rfl⟩
    have hread : WState.readItems (WState.mk w.file w.file.length page 0 false 8 none []) crcCodec = some items := by
      have := readItems_eq hv
      exact this
    have hopen : ∃ s', openAt plain () page w.file = some s' ∧ s'.kv = (intoMap items).1 := by
      unfold openAt openStore
      have hcn : configNew page w.file = w.file := by unfold configNew; rw [if_neg (by omega)]
      simp only [hcn, plain]
      rw [if_neg (by omega), hread]
      exact ⟨_, rfl, rfl⟩
    obtain ⟨s', ho, hk⟩ := hopen
    refine ⟨s', ho, ?_⟩
    rw [shows_open ho, hk, view_intoMap, ← hst]
    rfl

/-- **C63, as far as it holds** (plain store).  Any number of processes open a fresh directory and take turns: none begins
a call, or opens the file, while another has something under way.  If at the end no background thread has panicked and
all is at rest, then opening the file shows every `put` and every `delete` of a key that the deleting process could see,
in the order the calls were made.

Missing from the full claim: deletes of keys only another process has written, background threads that panic on a mapping
that has become too short (see `C63_refuted`), `clear_data`, and encrypted stores (`C63_refuted_encrypted`). -/
theorem C63_partial {page : Nat} (h8 : 8 ≤ page) {es : List (PEv Unit)} {w : Shared Unit} {rs : List (Out Unit)}
    (hrun : Shared.run plain page ⟨[], []⟩ es = some (w, rs)) (hturns : Shared.TakeTurns plain page ⟨[], []⟩ es)
    (hsz : ∀ e ∈ es, e.Sized) (halive : ∀ s ∈ w.procs, s.lp.io ≠ .unwinding ∧ s.lp.io ≠ .dead)
    (hrest : w.AllRest) (hsize : w.file.length < 2 ^ 64) :
    ∃ s', openAt plain () page w.file = some s' ∧ s'.Shows (Store.empty.run (Shared.sensible plain page ⟨[], []⟩ es)) := by
  have h := tok_run h8 es (cs := []) (.inl ⟨rfl, rfl, rfl⟩) hturns hsz hrun halive hsize
  rw [List.nil_append] at h
  exact tok_open h8 h hrest

/-! ### Processes that only add keys -/

/-- Every call of a history is a `put` of a key that the process which puts it does not hold. -/
def Shared.OnlyNew (codecs : ι → Codec) (page : Nat) : Shared ι → List (PEv ι) → Prop
  | _, [] => True
  | w, e :: es =>
    (match e with
      | .on p (.put k _ _) => ∀ s, w.procs[p]? = some s → s.getAs k 0 (fun _ => Out.ok ()) = .err .keyNotFound
      | .on _ (.delete _) => False
      | _ => True) ∧ match step codecs page w e with
    | none => True
    | some (w', _) => OnlyNew codecs page w' es

/-- A process that has only added keys. -/
structure Adds (page : Nat) (s : Inst Unit) : Prop where
  alive : s.Unpanicked
  trim : s.lp.cb.ws.needTrim = false
  quota : s.lp.cb.ws.quota = none
  jobs : ∀ j ∈ s.todo, ∃ b, j = .write b false ∧ crcLen b ≤ page
  pages : s.lp.cb.ws.page = page
  noQuit : .quit ∉ s.lp.chan
  sender : s.phase ≠ .closed → s.lp.sender = true ∧ s.lp.io ≠ .exited

/-- Without anything to compact, a write completes however stale the writer. -/
theorem SValid.write_adds {s : WState} {content : Bytes} {items : List (Option Buffer)} {page : Nat} (h : SValid s content items)
    (ht : s.needTrim = false) (hq : s.quota = none) (hp : s.page = page) (order : List Buffer → List Buffer) {b : Buffer}
    (hok : crcOk b) (hl : crcLen b ≤ page) :
    ∃ s', s.write crcCodec order b false = .done s' ∧ s'.needTrim = false ∧ s'.quota = none ∧ s'.page = page ∧
      s'.file.length ≤ s.file.length + page := by
  obtain ⟨r, hr, hrl, -⟩ := framed_enc crc_lawful b s.position hok trivial
  have hmm := h.mm
  have hmm8 := h.mm8
  have husz := h.usz
  have hlen := h.holds.len
  unfold WState.write
  rw [hr]
  simp only [h.writeOffset, Bool.false_eq_true, if_false]
  have happ : ∀ a : WState, SValid a content items → content.length + 8 + r.length ≤ a.mmLen →
      ∃ a', a.append r = .done a' ∧ a'.needTrim = a.needTrim ∧ a'.quota = a.quota ∧ a'.page = a.page := by
    intro a ha hfit
    have := ha.usz
    have := ha.mm8
    unfold WState.append
    rw [ha.writeOffset]
    simp only [WState.lenOffset, Nat.add_sub_cancel]
    unfold WState.storeLen WState.lenOffset
    rw [if_neg (by omega)]
    unfold WState.store
    rw [if_pos (by simp; omega)]
    simp only [Run.andThen_done]
    rw [if_pos (by omega)]
    exact ⟨_, rfl, rfl, rfl, rfl⟩
  split
  · rename_i hfit
    obtain ⟨a', e1, e2, e3, e4⟩ := happ s h (by omega)
    rw [e1]
    obtain ⟨l1, _⟩ := append_len hmm e1
    exact ⟨_, rfl, by simp [e2, ht], by simp [e3, hq], by simp [e4, hp], by simp only; omega⟩
  · rw [ht]
    simp only [Bool.false_eq_true, if_false]
    have hex : ∃ a, s.expand = .done a ∧ a.needTrim = false ∧ a.quota = none ∧ a.page = page ∧
        a.mmLen = a.file.length ∧ a.file.length = s.file.length + page := by
      unfold WState.expand
      simp only [hq, Option.all_none, if_true]
      exact ⟨_, rfl, by simp [ht], by simp, by simp [hp], by simp [zeros], by simp [zeros, hp]⟩
    obtain ⟨a, ea, a1, a2, a3, a4, a5⟩ := hex
    obtain ⟨va, _⟩ := h.expand ea
    rw [ea]
    simp only [Run.andThen_done]
    obtain ⟨a', e1, e2, e3, e4⟩ := happ a va (by omega)
    rw [e1]
    obtain ⟨l1, _⟩ := append_len va.mm e1
    exact ⟨_, rfl, by simp [e2, a1], by simp [e3, a2], by simp [e4, a3], by simp only; omega⟩

/-- One event in a process that only adds keys. -/
theorem adds_step {page : Nat} {s s' : Inst Unit} {e : Ev Unit} {r : Option (Out Unit)} {content : Bytes}
    {items : List (Option Buffer)} (h : Adds page s) (hi : PInv s) (hv : SValid s.lp.cb.ws content items)
    (he : e ≠ .clear) (hd : ∀ k, e ≠ .delete k) (hn : ∀ k t bs, e = .put k t bs → s.kv.get k = none) (hf : e.Fits page)
    (hs : Inst.step plain s e = some (s', r)) :
    Adds page s' ∧ (∀ x, r = some x → x = .ok ()) ∧
      s'.lp.cb.ws.file.length + page * s'.todo.length ≤ s.lp.cb.ws.file.length + page * (s.todo.length + (s.effect e).toList.length) := by
  cases e with
  | put k t bs =>
    have hk := hn k t bs rfl
    simp only [Inst.step] at hs
    split at hs
    · cases hs
    rename_i hg
    have hidle : s.phase = .idle := by cases hp : s.phase <;> simp [hp] at hg ⊢
    simp only [hi.poisoned, hi.valid, Bool.false_eq_true, if_false, Bool.true_eq_false, Option.some.injEq, Prod.mk.injEq] at hs
    obtain ⟨rfl, rfl⟩ := hs
    refine ⟨⟨h.alive, h.trim, h.quota, ?_, h.pages, h.noQuit, fun _ => h.sender (by simp [hidle])⟩, by simp, ?_⟩
    · intro j hj
      simp only [Inst.todo, Phase.inflight, List.mem_append, List.mem_singleton] at hj
      rcases hj with hj | hj
      · exact h.jobs j (by simpa [Inst.todo, hidle, Phase.inflight] using hj)
      · refine ⟨_, by rw [hj, hk]; rfl, ?_⟩
        simp only [Ev.Fits, recordSize] at hf
        simp only [crcLen, Buffer.ofRaw]
        omega
    · simp only [Inst.todo, Phase.inflight, hidle, List.length_append, List.length_cons, List.length_nil, Inst.effect,
        Option.toList, Nat.add_zero]
      exact Nat.le_refl _
  | delete k => exact absurd rfl (hd k)
  | clear => exact absurd rfl he
  | drop =>
    simp only [Inst.step] at hs
    split at hs
    · cases hs
    rename_i hg
    have hidle : s.phase = .idle := by simpa using hg
    simp only [Option.some.injEq, Prod.mk.injEq] at hs
    obtain ⟨rfl, rfl⟩ := hs
    have ht : Inst.todo { s with phase := .closed, lp := Looper.dropSender s.lp } = s.todo := by
      simp [Inst.todo, hidle, Phase.inflight, Looper.dropSender]
    refine ⟨⟨h.alive, h.trim, h.quota, ?_, h.pages, h.noQuit, by simp⟩, by simp, ?_⟩
    · rw [ht]; exact h.jobs
    · rw [ht]; exact Nat.le_refl _
  | api i =>
    simp only [Inst.step] at hs
    rcases hi.phase with hp | ⟨j, hp⟩ | hp | hp <;> rw [hp] at hs <;> simp only [Option.some.injEq, Prod.mk.injEq, reduceCtorEq] at hs
    · obtain ⟨rfl, rfl⟩ := hs
      obtain ⟨hsd, hex⟩ := h.sender (by simp [hp])
      have ht : Inst.todo { s with phase := .send, lp := Looper.push s.lp j } = s.todo := by
        simp only [Inst.todo, hp, Phase.inflight, Looper.push]
        split <;> simp
      have hlp : Looper.push s.lp j = { s.lp with queue := s.lp.queue ++ [j], pushed := s.lp.pushed ++ [j], owed := s.lp.owed + 1 } := by
        simp [Looper.push, hsd]
      refine ⟨⟨?_, ?_, ?_, ?_, ?_, ?_, ?_⟩, by simp, ?_⟩
      · simp only [hlp]; exact h.alive
      · simp only [hlp]; exact h.trim
      · simp only [hlp]; exact h.quota
      · rw [ht]; exact h.jobs
      · simp only [hlp]; exact h.pages
      · simp only [hlp]; exact h.noQuit
      · simp only [hlp]; exact fun _ => ⟨hsd, hex⟩
      · rw [ht]; simp only [hlp]; exact Nat.le_refl _
    · obtain ⟨rfl, rfl⟩ := hs
      obtain ⟨hsd, hex⟩ := h.sender (by simp [hp])
      have hlp : Looper.send s.lp = ({ s.lp with chan := s.lp.chan ++ [.next], owed := s.lp.owed - 1 }, true) := by
        have : ¬ (s.lp.io = .dead ∨ s.lp.io = .exited) := by
          rintro (x | x)
          · exact h.alive.2 x
          · exact hex x
        simp [Looper.send, hsd, this]
      have ht : Inst.todo { s with phase := .idle, lp := (Looper.send s.lp).1 } = s.todo := by
        simp only [Inst.todo, hp, Phase.inflight, hlp]
      refine ⟨⟨?_, ?_, ?_, ?_, ?_, ?_, ?_⟩, ?_, ?_⟩
      · simp only [hlp]; exact h.alive
      · simp only [hlp]; exact h.trim
      · simp only [hlp]; exact h.quota
      · rw [ht]; exact h.jobs
      · simp only [hlp]; exact h.pages
      · simp only [hlp]; simpa using h.noQuit
      · simp only [hlp]; exact fun _ => ⟨hsd, hex⟩
      · intro x hx; rw [hlp] at hx; simpa using hx.symm
      · rw [ht]; simp only [hlp]; exact Nat.le_refl _
  | io o =>
    simp only [Inst.step] at hs
    split at hs
    · cases hs
    rename_i lp hlp
    simp only [Option.some.injEq, Prod.mk.injEq] at hs
    obtain ⟨rfl, rfl⟩ := hs
    refine And.imp_right (fun x => ⟨by simp, x⟩) ?_
    have keep : ∀ lp' : Looper.St Order Job Cb, lp'.cb = s.lp.cb → lp'.buf ++ lp'.queue = s.lp.buf ++ s.lp.queue →
        lp'.sender = s.lp.sender → (lp'.io = .exited → s.phase = .closed) → lp'.io ≠ .unwinding → lp'.io ≠ .dead →
        (∀ x ∈ lp'.chan, x ∈ s.lp.chan) →
        Adds page { s with lp := lp' } ∧
        lp'.cb.ws.file.length + page * (Inst.todo { s with lp := lp' }).length ≤
          s.lp.cb.ws.file.length + page * (s.todo.length + (s.effect (.io o)).toList.length) := by
      intro lp' hcb hbq hsd hex h1 h2 hch
      have ht : Inst.todo { s with lp := lp' } = s.todo := by simp only [Inst.todo]; rw [hbq]
      refine ⟨⟨⟨h1, h2⟩, by simp only [hcb]; exact h.trim, by simp only [hcb]; exact h.quota, by rw [ht]; exact h.jobs,
        by simp only [hcb]; exact h.pages, fun hq => h.noQuit (hch _ hq), ?_⟩, by rw [ht, hcb]; exact Nat.le_refl _⟩
      intro hp
      refine ⟨by rw [hsd]; exact (h.sender hp).1, fun hx => hp (hex hx)⟩
    unfold Looper.ioStep at hlp
    cases hio : s.lp.io with
    | unwinding => exact absurd hio h.alive.1
    | dead => exact absurd hio h.alive.2
    | exited => rw [hio] at hlp; cases hlp
    | recv =>
      rw [hio] at hlp
      simp only at hlp
      split at hlp
      · rename_i hch
        simp only [Option.some.injEq] at hlp; subst hlp
        exact keep _ rfl rfl rfl (by simp) (by simp) (by simp) (by rw [hch]; exact fun x hx => List.mem_cons_of_mem _ hx)
      · rename_i hch
        exact absurd (by rw [hch]; simp) h.noQuit
      · rename_i hch
        split at hlp
        · cases hlp
        · rename_i hsd
          simp only [Option.some.injEq] at hlp; subst hlp
          refine keep _ rfl rfl rfl ?_ (by simp) (by simp) (fun x hx => hx)
          intro _
          cases hp : s.phase with
          | closed => rfl
          | _ => exact absurd (h.sender (by simp [hp])).1 hsd
    | swap =>
      rw [hio] at hlp
      have hbe := hi.bufEmpty (.inr (.inl hio))
      simp only [Option.some.injEq] at hlp; subst hlp
      exact keep _ rfl (by simp [hbe]) rfl (by simp) (by simp) (by simp) (fun x hx => hx)
    | run =>
      rw [hio] at hlp
      simp only at hlp
      split at hlp
      · simp only [Option.some.injEq] at hlp; subst hlp
        exact keep _ rfl rfl rfl (by simp) (by simp) (by simp) (fun x hx => hx)
      · rename_i j rest hbuf
        have hjmem : j ∈ s.todo := by simp [Inst.todo, hbuf]
        obtain ⟨b, rfl, hlb⟩ := h.jobs j hjmem
        obtain ⟨b', dup, hbe, hokb⟩ := hi.jobs _ hjmem
        injection hbe with hbe _
        subst hbe
        obtain ⟨ws', hw, w1, w2, w3, w4⟩ := hv.write_adds h.trim h.quota h.pages o hokb hlb
        have hx : execJob (plain s.idx) o (.write b false) s.lp.cb = .done { s.lp.cb with ws := ws' } := by
          simp only [execJob, plain, hw]
        rw [hx] at hlp
        simp only [Option.some.injEq] at hlp; subst hlp
        refine ⟨⟨by simp [Unpanicked], w1, w2, ?_, w3, h.noQuit, fun hp => ⟨(h.sender hp).1, by simp⟩⟩, ?_⟩
        · intro j hj
          refine h.jobs j ?_
          simp only [Inst.todo, List.mem_append] at hj ⊢
          rcases hj with (hj | hj) | hj
          · left; left; rw [hbuf]; exact List.mem_cons_of_mem _ hj
          · left; right; exact hj
          · right; exact hj
        · have hlen : s.todo.length = (Inst.todo { s with lp := { s.lp with cb := { s.lp.cb with ws := ws' }, buf := rest, ran := s.lp.ran ++ [(o, .write b false)] } }).length + 1 := by
            simp [Inst.todo, hbuf]
          simp only [hlen, Inst.effect, Option.toList, List.length_nil, Nat.add_zero, Nat.mul_add, Nat.mul_one]
          simp only [hio] at *
          omega

/-- Jobs outstanding in all processes. -/
def outstanding (ps : List (Inst Unit)) : Nat := (ps.map fun s => s.todo.length).sum

theorem outstanding_set {ps : List (Inst Unit)} {p : Nat} {s s1 : Inst Unit} (h : ps[p]? = some s) :
    outstanding (ps.set p s1) + s.todo.length = outstanding ps + s1.todo.length := by
  induction ps generalizing p with
  | nil => simp at h
  | cons x xs ih =>
    cases p with
    | zero =>
      simp at h; subst h
      simp only [outstanding, List.set_cons_zero, List.map_cons, List.sum_cons]; omega
    | succ p =>
      simp at h
      have := ih h
      simp only [outstanding, List.set_cons_succ, List.map_cons, List.sum_cons] at this ⊢; omega

/-- Invariant of processes that only add keys. -/
structure AOk (page : Nat) (w : Shared Unit) (cs : List Mutation) : Prop where
  tok : TOk w page cs
  adds : ∀ s ∈ w.procs, Adds page s
  size : w.file.length + page * outstanding w.procs ≤ page * (cs.length + 1)

theorem aok_step {page : Nat} (h8 : 8 ≤ page) (h32 : page < 2 ^ 32) {w w' : Shared Unit} {cs : List Mutation} {e : PEv Unit}
    {es : List (PEv Unit)} {r : Option (Out Unit)}
    (h : AOk page w cs) (hm : w.MayStart e) (hn : Shared.OnlyNew plain page w (e :: es)) (hf : e.Fits page)
    (hroom : page * (cs.length + (Shared.asked [e]).length + 1) < 2 ^ 64) (hs : Shared.step plain page w e = some (w', r)) :
    (∀ x, r = some x → x = .ok ()) ∧ ∃ m : Option Mutation, AOk page w' (cs ++ m.toList) ∧ m.toList = Shared.asked [e] := by
  cases e with
  | start i =>
    have h1 := tok_start h8 h.tok hs
    simp only [Shared.step] at hs
    split at hs
    · cases hs
    rename_i s ho
    simp only [Option.some.injEq, Prod.mk.injEq] at hs
    obtain ⟨rfl, rfl⟩ := hs
    have hopen := ho
    obtain ⟨hc, hal, g1, g2⟩ := open_calm ho
    unfold openAt at ho
    split at ho
    · cases ho
    rename_i o hos
    injection ho with ho
    have hws : o.ws.needTrim = false ∧ o.ws.quota = none ∧ o.ws.page = page ∧ (w.file.length ≠ 0 → o.ws.file = w.file) ∧
        (w.file.length = 0 → o.ws.file.length = page) := by
      unfold openStore at hos
      simp only at hos
      split at hos
      · cases hos
      · split at hos
        · cases hos
        · injection hos with hos
          subst hos
          refine ⟨rfl, rfl, rfl, fun hx => ?_, fun hx => ?_⟩
          · simp only [configNew]; rw [if_neg hx]
          · simp only [configNew]; rw [if_pos hx]; simp [zeros]
    have hsl : s.todo = [] := by rw [← ho]; rfl
    refine ⟨by simp, none, ⟨by simpa using h1, ?_, ?_⟩, rfl⟩
    · intro t ht
      rcases List.mem_append.1 ht with ht | ht
      · exact h.adds t ht
      · simp at ht; subst ht
        refine ⟨hal, ?_, ?_, by simp [hsl], ?_, ?_, ?_⟩ <;> rw [← ho] <;> simp [Looper.new, hws]
    · have hout : outstanding (w.procs ++ [s]) = outstanding w.procs := by simp [outstanding, hsl]
      have hsf : s.lp.cb.ws.file = o.ws.file := by rw [← ho]; rfl
      simp only [hout, hsf, Option.toList, List.append_nil]
      by_cases h0 : w.file.length = 0
      · rw [hws.2.2.2.2 h0]
        rcases h.tok with ⟨_, hp, hc⟩ | ⟨content, items, a, ht⟩
        · simp [hp, hc, outstanding]
        · have := ht.holds.len; omega
      · rw [hws.2.2.2.1 h0]; exact h.size
  | on p e =>
    have hsz : e.Sized := by
      cases e <;> simp only [PEv.Fits, Ev.Fits, Ev.Sized] at hf ⊢ <;> first | trivial | omega | exact hf
    obtain ⟨hne, s, s1, hps, hst, rfl⟩ := step_on hs
    have hmem := List.mem_of_getElem? hps
    rcases h.tok with ⟨_, hp, _⟩ | ⟨content, items, a, ht⟩
    · rw [hp] at hmem; cases hmem
    obtain ⟨hpi, hlv, husz, hmm8, hmm⟩ := ht.procs s hmem
    have hpi' : PInv (s.withFile w.file) := ⟨hpi.valid, hpi.poisoned, hpi.phase, hpi.bufEmpty, hpi.jobs⟩
    have hv : SValid (s.withFile w.file).lp.cb.ws content items := ⟨husz, hmm8, hmm, ht.holds, ht.framed⟩
    have had := h.adds s hmem
    have had' : Adds page (s.withFile w.file) := ⟨had.alive, had.trim, had.quota, had.jobs, had.pages, had.noQuit, had.sender⟩
    have hdel : ∀ k, e ≠ .delete k := by
      rintro k rfl
      exact hn.1
    have hnew : ∀ k t bs, e = .put k t bs → (s.withFile w.file).kv.get k = none := by
      rintro k t bs rfl
      have := hn.1 s hps
      rw [effect_eq hpi k hlv] at this
      exact Option.isNone_iff_eq_none.1 this
    obtain ⟨ha, hr, hsize⟩ := adds_step had' hpi' hv hne hdel hnew hf hst
    have hef : (s.withFile w.file).effect e = s.effect e := by cases e <;> rfl
    have htd : (s.withFile w.file).todo = s.todo := rfl
    have hwf : (s.withFile w.file).lp.cb.ws.file = w.file := rfl
    rw [hef, htd, hwf] at hsize
    have heq : (s.effect e).toList = Shared.asked [.on p e] := by
      cases e <;> first | rfl | exact absurd rfl (hdel _)
    have hlt := lt_of_some hps
    have hall : ∀ t ∈ w.procs.set p s1, Adds page t := by
      intro t ht
      rcases List.mem_or_eq_of_mem_set ht with ht | rfl
      · exact h.adds t ht
      · exact ha
    have hos := outstanding_set (s1 := s1) hps
    have hsz' : s1.lp.cb.ws.file.length + page * outstanding (w.procs.set p s1) ≤ page * ((cs ++ (s.effect e).toList).length + 1) := by
      have h1 := h.size
      have h2 : page * outstanding (w.procs.set p s1) + page * s.todo.length = page * outstanding w.procs + page * s1.todo.length := by
        rw [← Nat.mul_add, ← Nat.mul_add, hos]
      simp only [List.length_append, Nat.mul_add] at h1 hsize ⊢
      omega
    refine ⟨hr, s.effect e, ⟨?_, hall, hsz'⟩, heq⟩
    rw [heq, List.length_append] at hsz'
    have := tok_on h.tok hm hsz hs (fun t ht => (hall t ht).alive) (by simp only; omega)
    rw [hps] at this
    exact this

theorem aok_run {page : Nat} (h8 : 8 ≤ page) (h32 : page < 2 ^ 32) : ∀ (es : List (PEv Unit)) {w w' : Shared Unit} {cs : List Mutation}
    {rs : List (Out Unit)}, AOk page w cs → Shared.TakeTurns plain page w es → Shared.OnlyNew plain page w es →
    (∀ e ∈ es, e.Fits page) → page * (cs.length + (Shared.asked es).length + 1) < 2 ^ 64 →
    Shared.run plain page w es = some (w', rs) → (∀ r ∈ rs, r = .ok ()) ∧ AOk page w' (cs ++ Shared.asked es) := by
  intro es
  induction es with
  | nil =>
    intro w w' cs rs h _ _ _ _ hr
    simp only [Shared.run, Option.some.injEq, Prod.mk.injEq] at hr
    obtain ⟨rfl, rfl⟩ := hr
    exact ⟨by simp, by simpa [Shared.asked] using h⟩
  | cons e es ih =>
    intro w w' cs rs h htt hn hf hroom hr
    simp only [Shared.run] at hr
    split at hr
    · cases hr
    rename_i w1 r1 hst
    split at hr
    · cases hr
    rename_i w2 rs2 hrun
    simp only [Option.some.injEq, Prod.mk.injEq] at hr
    obtain ⟨rfl, rfl⟩ := hr
    simp only [Shared.TakeTurns, hst] at htt
    obtain ⟨hms, htt⟩ := htt
    have hn' : Shared.OnlyNew plain page w1 es := by
      have := hn.2
      rw [hst] at this
      exact this
    have hsplit : Shared.asked (e :: es) = Shared.asked [e] ++ Shared.asked es := by
      cases e with
      | start i => rfl
      | on p e => cases e <;> rfl
    rw [hsplit, List.length_append] at hroom
    have hle : page * (cs.length + (Shared.asked [e]).length + 1) ≤ page * (cs.length + ((Shared.asked [e]).length + (Shared.asked es).length) + 1) :=
      Nat.mul_le_mul_left _ (by omega)
    obtain ⟨hok, m, h1, hm⟩ := aok_step h8 h32 h hms hn (hf e List.mem_cons_self) (by omega) hst
    rw [hm] at h1
    obtain ⟨g1, g2⟩ := ih h1 htt hn' (fun e he => hf e (List.mem_cons_of_mem _ he))
      (by rw [List.length_append, Nat.add_assoc cs.length]; exact hroom) hrun
    rw [hsplit, ← List.append_assoc]
    refine ⟨?_, g2⟩
    intro x hx
    rcases List.mem_append.1 hx with hx | hx
    · exact hok x (by simpa using hx)
    · exact g1 x hx

/-- **C63 for processes that only add keys** (plain store): whatever the sizes of their mappings, every call returns `Ok`, no
background thread panics, and once all is at rest opening the file shows every `put`, in order. -/
theorem C63_partial_new_keys {page : Nat} (h8 : 8 ≤ page) (h32 : page < 2 ^ 32) {es : List (PEv Unit)} {w : Shared Unit}
    {rs : List (Out Unit)} (hrun : Shared.run plain page ⟨[], []⟩ es = some (w, rs))
    (hturns : Shared.TakeTurns plain page ⟨[], []⟩ es) (hnew : Shared.OnlyNew plain page ⟨[], []⟩ es)
    (hfit : ∀ e ∈ es, e.Fits page) (hroom : page * ((Shared.asked es).length + 1) < 2 ^ 64) :
    (∀ r ∈ rs, r = .ok ()) ∧ (∀ s ∈ w.procs, s.lp.io ≠ .unwinding ∧ s.lp.io ≠ .dead) ∧
    (w.AllRest → ∃ s', openAt plain () page w.file = some s' ∧ s'.Shows (Store.empty.run (Shared.asked es))) := by
  obtain ⟨h1, h2⟩ := aok_run h8 h32 es (cs := []) ⟨.inl ⟨rfl, rfl, rfl⟩, by simp, by simp [outstanding]⟩ hturns hnew hfit
    (by simpa using hroom) hrun
  rw [List.nil_append] at h2
  exact ⟨h1, fun s hs => (h2.adds s hs).alive, fun hrest => tok_open h8 h2.tok hrest⟩

/-! ### What does not hold -/

/-- A whole call of process `p` with its background write. -/
def turn (i : ι) (p : Nat) (e : Ev ι) : List (PEv ι) :=
  [.on p e, .on p (.api i), .on p (.api i), .on p (.io id), .on p (.io id), .on p (.io id), .on p (.io id)]

/-- Two processes open a fresh directory; the second puts "k"; then the first, which has not seen it, deletes "k". -/
def unseenDelete : List (PEv Unit) :=
  [.start (), .start ()] ++ turn () 1 (.put "k" 1 [1]) ++ [.on 0 (.delete "k")]

/-- Two processes open a fresh directory (pages of 32 bytes); the first puts "k"; the second puts "a" and "b", which makes
the file grow; then the first puts "k" again. -/
def staleCompaction : List (PEv Unit) :=
  [.start (), .start ()] ++ turn () 0 (.put "k" 1 [1]) ++ turn () 1 (.put "a" 1 [1, 2, 3]) ++ turn () 1 (.put "b" 1 [1, 2, 3]) ++
    turn () 0 (.put "k" 1 [1, 2])

theorem fits_turn {page : Nat} {p : Nat} {e : Ev Unit} (h : e.Fits page) : ∀ x ∈ turn () p e, x.Fits page := by
  intro x hx
  simp only [turn, List.mem_cons, List.not_mem_nil, or_false] at hx
  rcases hx with rfl | rfl | rfl | rfl | rfl | rfl | rfl
  · exact h
  all_goals first | trivial | exact fun l => .refl _

/-- **C63 is false of this program**, plain store: processes take strict turns, every record fits a page, every call returns
`Ok`, nothing is left under way - and yet opening the file again does not show what was asked.

1. A `delete` of a key that another process wrote returns `Ok(())` and does nothing.
2. A `put` that makes a process compact a file which another process has grown beyond its own mapping returns `Ok(())`;
   its background thread then panics and the put is lost. -/
theorem C63_refuted :
    (∃ w rs, Shared.run plain 64 ⟨[], []⟩ unseenDelete = some (w, rs) ∧ Shared.TakeTurns plain 64 ⟨[], []⟩ unseenDelete ∧
      (∀ e ∈ unseenDelete, e.Fits 64) ∧ (∀ r ∈ rs, r = .ok ()) ∧ w.AllRest ∧
      (∀ s ∈ w.procs, s.lp.io ≠ .unwinding ∧ s.lp.io ≠ .dead) ∧
      ∃ s', openAt plain () 64 w.file = some s' ∧ ¬ s'.Shows (Store.empty.run (Shared.asked unseenDelete))) ∧
    (∃ w rs, Shared.run plain 32 ⟨[], []⟩ staleCompaction = some (w, rs) ∧ Shared.TakeTurns plain 32 ⟨[], []⟩ staleCompaction ∧
      (∀ e ∈ staleCompaction, e.Fits 32) ∧ (∀ r ∈ rs, r = .ok ()) ∧ w.AllRest ∧
      Shared.asked staleCompaction = Shared.sensible plain 32 ⟨[], []⟩ staleCompaction ∧
      ∃ s', openAt plain () 32 w.file = some s' ∧ ¬ s'.Shows (Store.empty.run (Shared.asked staleCompaction))) := by
  constructor
  · have h : ((Shared.run plain 64 ⟨[], []⟩ unseenDelete).map fun p =>
        (decide (∀ r ∈ p.2, r = .ok ()) && decide (∀ s ∈ p.1.procs, s.Resting) &&
          decide (∀ s ∈ p.1.procs, s.lp.io ≠ .unwinding ∧ s.lp.io ≠ .dead),
          (openAt plain () 64 p.1.file).map fun s => s.getAs "k" 1 Out.ok)) =
        some (true, some (.ok [1])) := by decide +kernel
    cases hr : Shared.run plain 64 ⟨[], []⟩ unseenDelete with
    | none => rw [hr] at h; cases h
    | some p =>
      rw [hr] at h
      simp only [Option.map_some, Option.some.injEq, Prod.mk.injEq, Bool.and_eq_true, decide_eq_true_eq] at h
      obtain ⟨⟨⟨h1, h2⟩, h3⟩, h4⟩ := h
      refine ⟨p.1, p.2, rfl, by decide +kernel, ?_, h1, h2, h3, ?_⟩
      · intro e he
        simp only [unseenDelete, List.mem_append, List.mem_cons, List.not_mem_nil, or_false] at he
        rcases he with ((rfl | rfl) | he) | rfl
        · trivial
        · trivial
        · exact fits_turn (by unfold Ev.Fits; decide +kernel) e he
        · exact (by decide +kernel : recordSize "k" deletedToken [] ≤ 64)
      · cases ho : openAt plain () 64 p.1.file with
        | none => rw [ho] at h4; cases h4
        | some s' =>
          rw [ho] at h4
          simp only [Option.map_some, Option.some.injEq] at h4
          refine ⟨s', rfl, fun hsh => ?_⟩
          have := hsh _ "k" 1 Out.ok
          rw [h4] at this
          revert this
          decide +kernel
  · have h : ((Shared.run plain 32 ⟨[], []⟩ staleCompaction).map fun p =>
        (decide (∀ r ∈ p.2, r = .ok ()), decide (∀ s ∈ p.1.procs, s.Resting),
          (openAt plain () 32 p.1.file).map fun s => s.getAs "k" 1 Out.ok)) =
        some (true, true, some (.ok [1])) := by decide +kernel
    cases hr : Shared.run plain 32 ⟨[], []⟩ staleCompaction with
    | none => rw [hr] at h; cases h
    | some p =>
      rw [hr] at h
      simp only [Option.map_some, Option.some.injEq, Prod.mk.injEq, decide_eq_true_eq] at h
      obtain ⟨h1, h2, h4⟩ := h
      refine ⟨p.1, p.2, rfl, by decide +kernel, ?_, h1, h2, by decide +kernel, ?_⟩
      · intro e he
        simp only [staleCompaction, List.mem_append, List.mem_cons, List.not_mem_nil, or_false] at he
        rcases he with ((((rfl | rfl) | he) | he) | he) | he
        · trivial
        · trivial
        all_goals exact fits_turn (by unfold Ev.Fits; decide +kernel) e he
      · cases ho : openAt plain () 32 p.1.file with
        | none => rw [ho] at h4; cases h4
        | some s' =>
          rw [ho] at h4
          simp only [Option.map_some, Option.some.injEq] at h4
          refine ⟨s', rfl, fun hsh => ?_⟩
          have := hsh _ "k" 1 Out.ok
          rw [h4] at this
          revert this
          decide +kernel

/-- Two processes open a fresh encrypted directory; the first puts "a", then the second puts "b". -/
def staleCounter : List (PEv (Bytes × Bytes)) :=
  let i := (testKeyBytes, nonce1)
  [.start i, .start i] ++ turn i 0 (.put "a" 1 [1]) ++ turn i 1 (.put "b" 1 [2])

/-- **C63 is false of this program**, encrypted store (toy cipher): two processes with the same key take turns, one put each,
both acknowledged, no compaction, nothing panics.  The second encrypts its record under the counter the first has already
used (its own count of records is stale), so that it reuses a nonce and nobody can decrypt the record where it stands:
the put is lost. -/
theorem C63_refuted_encrypted :
    ∃ w rs, Shared.run (encrypted toy) 80 ⟨[], []⟩ staleCounter = some (w, rs) ∧
      Shared.TakeTurns (encrypted toy) 80 ⟨[], []⟩ staleCounter ∧ (∀ r ∈ rs, r = .ok ()) ∧ w.AllRest ∧
      (∀ s ∈ w.procs, s.lp.io ≠ .unwinding ∧ s.lp.io ≠ .dead) ∧
      Shared.asked staleCounter = Shared.sensible (encrypted toy) 80 ⟨[], []⟩ staleCounter ∧
      ∃ s', openAt (encrypted toy) (testKeyBytes, nonce1) 80 w.file = some s' ∧
        ¬ s'.Shows (Store.empty.run (Shared.asked staleCounter)) := by
  have h : ((Shared.run (encrypted toy) 80 ⟨[], []⟩ staleCounter).map fun p =>
      (decide (∀ r ∈ p.2, r = .ok ()) && decide (∀ s ∈ p.1.procs, s.Resting) &&
        decide (∀ s ∈ p.1.procs, s.lp.io ≠ .unwinding ∧ s.lp.io ≠ .dead),
        (openAt (encrypted toy) (testKeyBytes, nonce1) 80 p.1.file).map fun s => s.getAs "b" 1 Out.ok)) =
      some (true, some (.err .keyNotFound)) := by decide +kernel
  cases hr : Shared.run (encrypted toy) 80 ⟨[], []⟩ staleCounter with
  | none => rw [hr] at h; cases h
  | some p =>
    rw [hr] at h
    simp only [Option.map_some, Option.some.injEq, Prod.mk.injEq, Bool.and_eq_true, decide_eq_true_eq] at h
    obtain ⟨⟨⟨h1, h2⟩, h3⟩, h4⟩ := h
    refine ⟨p.1, p.2, rfl, by decide +kernel, h1, h2, h3, by decide +kernel, ?_⟩
    cases ho : openAt (encrypted toy) (testKeyBytes, nonce1) 80 p.1.file with
    | none => rw [ho] at h4; cases h4
    | some s' =>
      rw [ho] at h4
      simp only [Option.map_some, Option.some.injEq] at h4
      refine ⟨s', rfl, fun hsh => ?_⟩
      have := hsh _ "b" 1 Out.ok
      rw [h4] at this
      revert this
      decide +kernel

/-- The hypotheses of `C63_partial` are met: two processes take turns on one file (pages of 32 bytes); the second makes it
grow, the first then adds a key with its short mapping, and a third process that has read everything overwrites and
deletes. -/
example : ∃ es w rs, Shared.run plain 32 ⟨[], []⟩ es = some (w, rs) ∧ Shared.TakeTurns plain 32 ⟨[], []⟩ es ∧
    (∀ s ∈ w.procs, s.lp.io ≠ .unwinding ∧ s.lp.io ≠ .dead) ∧ w.AllRest ∧ w.file.length < 2 ^ 64 ∧
    w.procs.length = 3 ∧ (Shared.sensible plain 32 ⟨[], []⟩ es).length = 6 := by
  refine ⟨[.start (), .start ()] ++ turn () 0 (.put "k" 1 [1]) ++ turn () 1 (.put "a" 1 [1, 2, 3]) ++ turn () 1 (.put "b" 1 [1, 2, 3]) ++
    turn () 0 (.put "c" 1 [1, 2]) ++ [.start ()] ++ turn () 2 (.put "a" 1 [9]) ++ turn () 2 (.delete "b"), ?_⟩
  have h : ((Shared.run plain 32 ⟨[], []⟩ ([.start (), .start ()] ++ turn () 0 (.put "k" 1 [1]) ++ turn () 1 (.put "a" 1 [1, 2, 3]) ++
      turn () 1 (.put "b" 1 [1, 2, 3]) ++ turn () 0 (.put "c" 1 [1, 2]) ++ [.start ()] ++ turn () 2 (.put "a" 1 [9]) ++
      turn () 2 (.delete "b"))).map fun p =>
      (decide (∀ s ∈ p.1.procs, s.lp.io ≠ .unwinding ∧ s.lp.io ≠ .dead), decide (∀ s ∈ p.1.procs, s.Resting),
        decide (p.1.file.length < 2 ^ 64), p.1.procs.length)) = some (true, true, true, 3) := by decide +kernel
  cases hr : Shared.run plain 32 ⟨[], []⟩ ([.start (), .start ()] ++ turn () 0 (.put "k" 1 [1]) ++ turn () 1 (.put "a" 1 [1, 2, 3]) ++
      turn () 1 (.put "b" 1 [1, 2, 3]) ++ turn () 0 (.put "c" 1 [1, 2]) ++ [.start ()] ++ turn () 2 (.put "a" 1 [9]) ++
      turn () 2 (.delete "b")) with
  | none => rw [hr] at h; cases h
  | some p =>
    rw [hr] at h
    simp only [Option.map_some, Option.some.injEq, Prod.mk.injEq, decide_eq_true_eq] at h
    obtain ⟨h1, h2, h3, h4⟩ := h
    exact ⟨p.1, p.2, rfl, by decide +kernel, h1, h2, h3, h4, by decide +kernel⟩

instance decOnlyNew (codecs : ι → Codec) (page : Nat) : (es : List (PEv ι)) → (w : Shared ι) →
    Decidable (Shared.OnlyNew codecs page w es)
  | [], _ => .isTrue trivial
  | e :: es, w => by
    unfold Shared.OnlyNew
    have h1 : Decidable (match (generalizing := false) e with
      | .on p (.put k _ _) => ∀ s, w.procs[p]? = some s → s.getAs k 0 (fun _ => Out.ok ()) = .err .keyNotFound
      | .on _ (.delete _) => False
      | _ => True) := by
      split
      · rename_i p k _ _
        cases h : w.procs[p]? with
        | none => exact .isTrue (by simp)
        | some s => exact decidable_of_iff (s.getAs k 0 (fun _ => Out.ok ()) = .err .keyNotFound) (by simp)
      · exact .isFalse id
      · exact .isTrue trivial
    cases Shared.step codecs page w e with
    | none => exact @instDecidableAnd _ _ h1 (.isTrue trivial)
    | some p => exact @instDecidableAnd _ _ h1 (decOnlyNew codecs page es p.1)

/-- Two processes that only add keys; the second makes the file grow beyond the mapping of the first. -/
def addOnly : List (PEv Unit) :=
  [.start (), .start ()] ++ turn () 0 (.put "k" 1 [1]) ++ turn () 1 (.put "a" 1 [1, 2, 3]) ++ turn () 1 (.put "b" 1 [1, 2, 3]) ++
    turn () 0 (.put "c" 1 [1, 2])

/-- The hypotheses of `C63_partial_new_keys` are met. -/
example : ∃ w rs, Shared.run plain 32 ⟨[], []⟩ addOnly = some (w, rs) ∧ Shared.TakeTurns plain 32 ⟨[], []⟩ addOnly ∧
    Shared.OnlyNew plain 32 ⟨[], []⟩ addOnly ∧ (∀ e ∈ addOnly, e.Fits 32) ∧ w.AllRest ∧ rs.length = 4 := by
  have h : ((Shared.run plain 32 ⟨[], []⟩ addOnly).map fun p =>
      (decide (∀ s ∈ p.1.procs, s.Resting), p.2.length)) = some (true, 4) := by decide +kernel
  cases hr : Shared.run plain 32 ⟨[], []⟩ addOnly with
  | none => rw [hr] at h; cases h
  | some p =>
    rw [hr] at h
    simp only [Option.map_some, Option.some.injEq, Prod.mk.injEq, decide_eq_true_eq] at h
    refine ⟨p.1, p.2, rfl, by decide +kernel, by decide +kernel, ?_, h.1, h.2⟩
    intro e he
    simp only [addOnly, List.mem_append, List.mem_cons, List.not_mem_nil, or_false] at he
    rcases he with ((((rfl | rfl) | he) | he) | he) | he
    · trivial
    · trivial
    all_goals exact fits_turn (by unfold Ev.Fits; decide +kernel) e he

end Mmkv
