import Verif.Props.EncWorld
import Verif.Props.Unwind
/-!
# Dropping handles of encrypted stores: C81 with the `encryption` feature
-/

namespace Mmkv
open Spec World

/-- Whatever first part of the events has happened, no store has a background thread that a drop would find dead. -/
def NoneDead {ι : Type} (S : Sys ι) (w0 : World ι) (es : List (WEv ι)) : Prop :=
  ∀ es1 es2, es = es1 ++ es2 → ∀ (w : World ι) (rs : List WRes), w0.run S es1 = some (w, rs) →
    ∀ (o : Nat) (ob : Obj ι), w.objs[o]? = some ob → ob.inst.joinResult ≠ some false

theorem taskRun_fine {ι : Type} {S : Sys ι} {w0 w w' : World ι} {es0 es rest : List (WEv ι)} {rs0 : List WRes} (hrun0 : w0.run S es0 = some (w, rs0))
    (hnd : NoneDead S w0 (es0 ++ es ++ rest)) {t : Task} {b : Bool} (ht : TaskRun S w t es w' b) (hpo : w'.poisoned = false) : b ≠ true := by
  intro hb
  cases ht with
  | @unlist _ k r hs =>
    rw [beq_iff_eq] at hb
    subst hb
    have hw := unpoisoned_before (S := S) (w := w) (es := [.drop1 k]) (rs := [.panic]) (by simp only [World.run, hs]) hpo
    simp only [World.step, hw] at hs
    split at hs
    · cases hs
    split at hs
    · cases hs
    split at hs
    · rename_i hc; cases hc
    · injection hs with hs; injection hs with _ hs; cases hs
  | shared => cases hb
  | last hh hs hl hw hob hj =>
    rw [Bool.not_eq_true'] at hb
    subst hb
    exact hnd _ _ rfl _ _ (wrun_append _ _ hrun0 (by simp only [World.run, hs, hw]; rfl)) _ _ hob hj

/-- Dropping any handles goes through, if no background thread dies and the registry does not get poisoned. -/
theorem scopeEnd_fine {ι : Type} {S : Sys ι} {w0 w w' : World ι} {es0 es : List (WEv ι)} {rs0 : List WRes} (hrun0 : w0.run S es0 = some (w, rs0))
    (hnd : NoneDead S w0 (es0 ++ es)) {unwinding : Bool} {ts : List Task} {e : ThreadEnd} (hend : ScopeEnd S w unwinding ts es w' e)
    (hpo : w'.poisoned = false) : e = if unwinding then .panics else .continues := by
  induction hend generalizing es0 rs0 with
  | through => rfl
  | unwound => rfl
  | others h1 _ ih =>
    rw [← List.append_assoc] at hnd
    exact ih (wrun_append _ _ hrun0 h1) hnd hpo
  | fine h1 _ ih =>
    obtain ⟨_, h1⟩ := taskRun_run h1
    rw [← List.append_assoc] at hnd
    exact ih (wrun_append _ _ hrun0 h1) hnd hpo
  | panicked h1 rest _ =>
    exfalso
    obtain ⟨_, hr⟩ := scopeEnd_run rest
    rw [← List.append_assoc] at hnd
    exact taskRun_fine hrun0 hnd h1 (unpoisoned_before hr hpo) rfl
  | aborted h1 =>
    exact absurd rfl (taskRun_fine (rest := []) hrun0 (by simpa using hnd) h1 hpo)

/-- The events of the process, with key and nonce in place of the random bytes. -/
def EncWorld.events (S : Sys (Bytes × Bytes)) (keys : Nat → String) : EncWorld → List (WEv Bytes) → List (WEv (Bytes × Bytes))
  | _, [] => []
  | s, e :: es => e.at (e.openIdx S keys s.nonces s.w) ::
    match s.step S keys e with
    | none => []
    | some (s', _) => events S keys s' es

theorem encEvents_prefix {S : Sys (Bytes × Bytes)} {keys : Nat → String} : ∀ (es : List (WEv Bytes)) {s : EncWorld} {es1 es2 : List (WEv (Bytes × Bytes))}
    {w : World (Bytes × Bytes)} {rs : List WRes}, EncWorld.events S keys s es = es1 ++ es2 → s.w.run S es1 = some (w, rs) →
    ∃ a b s', es = a ++ b ∧ s.run S keys a = some (s', rs) ∧ s'.w = w := by
  intro es
  induction es with
  | nil =>
    intro s es1 es2 w rs h hr
    rw [EncWorld.events] at h
    obtain ⟨rfl, _⟩ := List.append_eq_nil_iff.1 h.symm
    simp only [World.run, Option.some.injEq, Prod.mk.injEq] at hr
    obtain ⟨rfl, rfl⟩ := hr
    exact ⟨[], [], s, rfl, rfl, rfl⟩
  | cons e es ih =>
    intro s es1 es2 w rs h hr
    cases es1 with
    | nil =>
      simp only [World.run, Option.some.injEq, Prod.mk.injEq] at hr
      obtain ⟨rfl, rfl⟩ := hr
      exact ⟨[], _, s, rfl, rfl, rfl⟩
    | cons x es1 =>
      rw [EncWorld.events, List.cons_append] at h
      injection h with h1 h2
      subst h1
      unfold World.run at hr
      split at hr
      · cases hr
      rename_i w1 r hst
      split at hr
      · cases hr
      rename_i w2 rs2 hr2
      simp only [Option.some.injEq, Prod.mk.injEq] at hr
      obtain ⟨rfl, rfl⟩ := hr
      have hs : s.step S keys e = some (⟨w1, noncesAfter S keys s.nonces s.w w1 e⟩, r) := by
        unfold EncWorld.step; simp only [hst]
      simp only [hs] at h2
      obtain ⟨a, b, s', rfl, g1, g2⟩ := ih h2 hr2
      exact ⟨e :: a, b, s', rfl, by simp only [EncWorld.run, hs, g1], g2⟩

theorem encCalm_prefix {S : Sys (Bytes × Bytes)} {keys : Nat → String} : ∀ (a : List (WEv Bytes)) {b : List (WEv Bytes)} {s : EncWorld},
    EncWorld.CalmRun S keys s (a ++ b) → EncWorld.CalmRun S keys s a
  | [], _, _, _ => trivial
  | _ :: a, _, _, h => ⟨h.1, fun s' r hs => encCalm_prefix a (h.2 s' r hs)⟩

/-- **C81**, what is true with the `encryption` feature: in a process of encrypted stores - any number of directories, handles, threads, calls - whose
records fit a page each and in which no `new` has panicked so far and none does meanwhile, a thread that drops any handles it owns, whatever the others do, at the
end of a scope or while it unwinds from a panic of its own, gets through them: it goes on as it was.  (`es0`: what happened before, `es1`: what happens
meanwhile.)  Missing from C81: as in `C81_partial`. -/
theorem C81_encrypted_partial {C : Cipher} {page K : Nat} (h8 : 8 ≤ page) (h32 : page < 2 ^ 32) {fileOf : String → Nat} {dirOk : String → Bool} {keys : Nat → String}
    (hkeys : ∀ f, (decodeKey (keys f)).isSome = true) {names : Nat → Option Nat} {inodes : List Bytes} (hg : GoodNames names inodes)
    {n0 : Nat → Option Bytes} {S0 : Nat → Store} (h0 : ∀ f, EncFileMap C page K (keys f) (EncWorld.dir ⟨start names inodes, n0⟩ f) (S0 f))
    {es : List (WEv Bytes)} {s : EncWorld} {rs rs0 : List WRes} (hrun : EncWorld.run (encProcess C page fileOf dirOk) keys ⟨start names inodes, n0⟩ es = some (s, rs))
    {es0 es1 : List (WEv (Bytes × Bytes))} (hes : EncWorld.events (encProcess C page fileOf dirOk) keys ⟨start names inodes, n0⟩ es = es0 ++ es1)
    {w : World (Bytes × Bytes)} (hrun0 : World.run (encProcess C page fileOf dirOk) (start names inodes) es0 = some (w, rs0))
    {unwinding : Bool} {hs : List Nat} {e : ThreadEnd} (hend : ScopeEnd (encProcess C page fileOf dirOk) w unwinding (dropTasks hs) es1 s.w e)
    (hnew : ∀ (n : Nat) (d : String) (r : Bytes), es[n]? = some (.create d r) → rs[n]? ≠ some .panic)
    (hok : ∀ e ∈ es, e.EncOk page) (hcalm : EncWorld.CalmRun (encProcess C page fileOf dirOk) keys ⟨start names inodes, n0⟩ es)
    (hroom : page * (K + es.length) + 8 < 2 ^ 64) (hctr : K + es.length < 2 ^ 32 - 1) :
    e = if unwinding then .panics else .continues := by
  have hpo : s.w.poisoned = false := by
    obtain ⟨ws, h1, hlen, h2⟩ := encRun_world es hrun
    refine poison_run ws rfl h1 fun n d i hi => ?_
    obtain ⟨e', he'⟩ : ∃ e', es[n]? = some e' := ⟨_, List.getElem?_eq_getElem (by rw [← hlen]; exact getElem?_lt hi)⟩
    obtain ⟨j, hj⟩ := h2 n e' he'
    rw [hi] at hj
    injection hj with hj
    cases e' with
    | create d' r => injection hj with h3 _; subst h3; exact hnew n _ _ he'
    | _ => cases hj
  refine scopeEnd_fine hrun0 ?_ hend hpo
  rw [← hes]
  intro a b hab w1 rs1 hr o ob ho
  obtain ⟨a', b', s', rfl, g1, g2⟩ := encEvents_prefix es (s := ⟨start names inodes, n0⟩) hab hr
  subst g2
  have hb := (encBase_process h8 h32 hkeys hg h0 g1 (fun e he => hok e (List.mem_append_left _ he)) (encCalm_prefix _ hcalm)
    (Nat.lt_of_le_of_lt (Nat.add_le_add_right (Nat.mul_le_mul_left _ (by simp)) _) hroom)
    (Nat.lt_of_le_of_lt (by simp) hctr)).2
  have hnd : ob.inst.lp.io ≠ .dead := by
    rcases hb.base.file (fileOf ob.dir) with ⟨h1, _⟩ | ⟨q, x, pre, post, h1, h2, h3, h4, h5, _⟩
    · exact absurd rfl (h1 o ob ho)
    · by_cases hq : o = q
      · subst hq; rw [ho] at h1; injection h1 with h1; subst h1; exact h5.alive.2
      · rw [(h3 o ob hq ho rfl).1.2]; decide
  intro hj
  unfold Inst.joinResult at hj
  split at hj
  · cases hj
  split at hj
  · cases hj
  · rename_i hd; exact hnd hd
  · cases hj

theorem encStep_world {S : Sys (Bytes × Bytes)} {keys : Nat → String} {s s' : EncWorld} {e : WEv Bytes} {r : WRes} (h : s.step S keys e = some (s', r)) :
    s.w.step S (e.at (e.openIdx S keys s.nonces s.w)) = some (s'.w, r) := by
  unfold EncWorld.step at h
  split at h
  · cases h
  · rename_i hw
    injection h with h; injection h with h1 h2; subst h1 h2; exact hw

theorem encRun_events {S : Sys (Bytes × Bytes)} {keys : Nat → String} (es : List (WEv Bytes)) : ∀ {s s' : EncWorld} {rs : List WRes},
    s.run S keys es = some (s', rs) → s.w.run S (EncWorld.events S keys s es) = some (s'.w, rs) := by
  induction es with
  | nil =>
    intro s s' rs h
    simp only [EncWorld.run, Option.some.injEq, Prod.mk.injEq] at h
    obtain ⟨rfl, rfl⟩ := h
    rfl
  | cons e es ih =>
    intro s s' rs h
    simp only [EncWorld.run] at h
    split at h
    · cases h
    rename_i s1 r hst
    split at h
    · cases h
    rename_i s2 rs2 hr
    simp only [Option.some.injEq, Prod.mk.injEq] at h
    obtain ⟨rfl, rfl⟩ := h
    simp only [EncWorld.events, hst, World.run, encStep_world hst, ih hr]

theorem encEvents_append {S : Sys (Bytes × Bytes)} {keys : Nat → String} (a : List (WEv Bytes)) : ∀ {b : List (WEv Bytes)} {s s1 s2 : EncWorld} {rs rs' : List WRes},
    s.run S keys a = some (s1, rs) → s1.run S keys b = some (s2, rs') →
    s.run S keys (a ++ b) = some (s2, rs ++ rs') ∧ EncWorld.events S keys s (a ++ b) = EncWorld.events S keys s a ++ EncWorld.events S keys s1 b := by
  induction a with
  | nil =>
    intro b s s1 s2 rs rs' h h'
    simp only [EncWorld.run, Option.some.injEq, Prod.mk.injEq] at h
    obtain ⟨rfl, rfl⟩ := h
    exact ⟨h', rfl⟩
  | cons e es ih =>
    intro b s s1 s2 rs rs' h h'
    simp only [EncWorld.run] at h
    split at h
    · cases h
    rename_i s3 r hst
    split at h
    · cases h
    rename_i s4 rs4 hr
    simp only [Option.some.injEq, Prod.mk.injEq] at h
    obtain ⟨rfl, rfl⟩ := h
    obtain ⟨g1, g2⟩ := ih hr h'
    simp only [List.cons_append, EncWorld.run, EncWorld.events, hst, g1, g2]
    exact ⟨trivial, trivial⟩

/-- A put through a handle of "d", which is then dropped. -/
def encUnwindDemo : List (WEv Bytes) :=
  [.create "d" (rnd 1), .call 0 "d" (.put "k" ⟨0, [0, 0, 0, 7]⟩), .cont 0 (rnd 2), .cont 0 (rnd 3), .drop1 0, .drop2 0] ++ List.replicate 5 (.io 0 id)

/-- The hypotheses of `C81_encrypted_partial` are met: a thread with a handle, with a value put through it, unwinds from a panic of its own. -/
example : ∃ s rs rs0 es0 es1 w, EncWorld.run (encProcess toy 80 spelled fun _ => true) (fun _ => testKey) ⟨start (fun _ => none) [], fun _ => none⟩ encUnwindDemo = some (s, rs) ∧
    EncWorld.events (encProcess toy 80 spelled fun _ => true) (fun _ => testKey) ⟨start (fun _ => none) [], fun _ => none⟩ encUnwindDemo = es0 ++ es1 ∧
    World.run (encProcess toy 80 spelled fun _ => true) (start (fun _ => none) []) es0 = some (w, rs0) ∧ rs0 = [.handle 0, .quiet, .quiet, .ret (.ok ())] ∧
    ScopeEnd (encProcess toy 80 spelled fun _ => true) w true (dropTasks [0]) es1 s.w .panics ∧ .panic ∉ rs ∧ (∀ e ∈ encUnwindDemo, e.EncOk 80) ∧
    EncWorld.CalmRun (encProcess toy 80 spelled fun _ => true) (fun _ => testKey) ⟨start (fun _ => none) [], fun _ => none⟩ encUnwindDemo := by
  have h : (match EncWorld.run (encProcess toy 80 spelled fun _ => true) (fun _ => testKey) ⟨start (fun _ => none) [], fun _ => none⟩ (encUnwindDemo.take 4) with
    | none => false
    | some (s0, rs0) => decide (rs0 = [.handle 0, .quiet, .quiet, .ret (.ok ())]) &&
      match s0.step (encProcess toy 80 spelled fun _ => true) (fun _ => testKey) (.drop1 0) with
      | none => false
      | some (s1, r1) => decide (r1 = .quiet) && (match s1.w.handles[0]? with
        | none => false
        | some hd => decide (hd.obj = 0)) && match s1.step (encProcess toy 80 spelled fun _ => true) (fun _ => testKey) (.drop2 0) with
        | none => false
        | some (s2, r2) => decide (r2 = .quiet ∧ s2.w.strong 0 = 0) &&
          match EncWorld.run (encProcess toy 80 spelled fun _ => true) (fun _ => testKey) s2 (List.replicate 5 (.io 0 id)) with
          | none => false
          | some (s3, rs3) => decide (.panic ∉ rs3) && match s3.w.objs[0]? with
            | none => false
            | some ob => decide (ob.inst.joinResult = some true)) = true := by decide +kernel
  split at h
  · cases h
  rename_i s0 rs0 hr0
  simp only [Bool.and_eq_true] at h
  obtain ⟨h1, h⟩ := h
  split at h
  · cases h
  rename_i s1 r1 hs1
  simp only [Bool.and_eq_true] at h
  obtain ⟨⟨h2, h3⟩, h⟩ := h
  split at h3
  · cases h3
  rename_i hd hh
  split at h
  · cases h
  rename_i s2 r2 hs2
  simp only [Bool.and_eq_true] at h
  obtain ⟨h4, h⟩ := h
  split at h
  · cases h
  rename_i s3 rs3 hr3
  simp only [Bool.and_eq_true] at h
  obtain ⟨h5, h6⟩ := h
  split at h6
  · cases h6
  rename_i ob hob
  simp only [decide_eq_true_eq] at h1 h2 h3 h4 h5 h6
  obtain ⟨h4, h4'⟩ := h4
  subst h1 h2 h4
  have hrest : EncWorld.run (encProcess toy 80 spelled fun _ => true) (fun _ => testKey) s0 (.drop1 0 :: .drop2 0 :: List.replicate 5 (.io 0 id)) =
      some (s3, .quiet :: .quiet :: rs3) := by
    simp only [EncWorld.run, hs1, hs2, hr3]
  have hsplit : encUnwindDemo = encUnwindDemo.take 4 ++ (.drop1 0 :: .drop2 0 :: List.replicate 5 (.io 0 id)) := rfl
  obtain ⟨g1, g2⟩ := encEvents_append _ hr0 hrest
  rw [← hsplit] at g1 g2
  have hend : ScopeEnd (encProcess toy 80 spelled fun _ => true) s0.w true (dropTasks [0])
      (EncWorld.events (encProcess toy 80 spelled fun _ => true) (fun _ => testKey) s0 (.drop1 0 :: .drop2 0 :: List.replicate 5 (.io 0 id))) s3.w .panics := by
    have e1 : EncWorld.events (encProcess toy 80 spelled fun _ => true) (fun _ => testKey) s0 (.drop1 0 :: .drop2 0 :: List.replicate 5 (.io 0 id)) =
        [.drop1 0] ++ (.drop2 0 :: EncWorld.events (encProcess toy 80 spelled fun _ => true) (fun _ => testKey) s2 (List.replicate 5 (.io 0 id)) ++ []) := by
      simp only [EncWorld.events, hs1, hs2, WEv.at, List.append_nil]; rfl
    rw [e1]
    exact .fine (.unlist (encStep_world hs1))
      (.fine (.last hh (encStep_world hs2) (by rw [h3]; exact h4') (encRun_events _ hr3) (by rw [h3]; exact hob) h6) .unwound)
  refine ⟨s3, _, _, _, _, s0.w, g1, g2, encRun_events _ hr0, rfl, hend, ?_, ?_, encCalmRun_of _ (by decide +kernel)⟩
  · simp [h5]
  · have hio : ∀ o n, ∀ e ∈ List.replicate n (WEv.io o id : WEv Bytes), e.EncOk 80 := by
      intro o n e he
      rw [List.mem_replicate] at he
      obtain ⟨_, rfl⟩ := he
      exact fun l => List.Perm.refl l
    have hput : (WEv.call 0 "d" (.put "k" ⟨0, [0, 0, 0, 7]⟩) : WEv Bytes).EncOk 80 := by
      show encRecordSize "k" 0 [0, 0, 0, 7] ≤ 80; decide +kernel
    unfold encUnwindDemo
    simp only [List.forall_mem_append, List.forall_mem_cons]
    simp only [List.not_mem_nil, false_implies, implies_true, and_true]
    exact ⟨⟨rfl, hput, rfl, rfl, trivial, trivial⟩, hio _ _⟩

end Mmkv
