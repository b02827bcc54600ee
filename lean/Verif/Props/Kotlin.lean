import Verif.Model.Kotlin
import Verif.Props.EncProc
/-!
# C90: a Kotlin program reads what it wrote, whatever the garbage collector does
-/

namespace Mmkv
open Spec World

/-- The program makes its calls one at a time: each has returned before the next is made.  (Finalizers are not calls of the program.) -/
def OneAtATime (h : List (HEv POp PRes)) : Prop :=
  ∀ (i j t u : Nat) (op op' : POp), i < j → h[i]? = some (.inv t op) → h[j]? = some (.inv u op') → (∀ k d, op ≠ .drop k d) → (∀ k d, op' ≠ .drop k d) →
    ∃ m r, Spec.Returned h i m op r ∧ m < j

/-- The mutating call of directory `f` an event is, if it is one. -/
def madeOn (fileOf : String → Nat) (f : Nat) : HEv POp PRes → Option Mutation
  | .inv _ (.on _ d (.mut m)) => if fileOf d = f then some m else none
  | _ => none

/-- Every `get` returns what the mutating calls made before it, in the order they were made, lead to. -/
def ReadsOwnWrites (fileOf : String → Nat) (S0 : Nat → Store) (h : List (HEv POp PRes)) : Prop :=
  ∀ (i j k : Nat) (d key : String) (tok : BitVec 32) (r : PRes), Spec.Returned h i j (.on k d (.get key tok)) r →
    r = .res (Store.lookup ((S0 (fileOf d)).run ((h.take i).filterMap (madeOn fileOf (fileOf d)))) key tok fun bs => .ok (some bs))

/-- Two lists with increasing positions and the same entries are equal. -/
theorem eq_of_increasing {α : Type} : ∀ {A B : List (Nat × α)}, A.Pairwise (fun x y => x.1 < y.1) → B.Pairwise (fun x y => x.1 < y.1) →
    (∀ x, x ∈ A ↔ x ∈ B) → A = B := by
  intro A
  induction A with
  | nil =>
    intro B _ _ h
    cases B with
    | nil => rfl
    | cons b B => exact absurd ((h b).2 List.mem_cons_self) List.not_mem_nil
  | cons a A ih =>
    intro B hA hB h
    cases B with
    | nil => exact absurd ((h a).1 List.mem_cons_self) List.not_mem_nil
    | cons b B =>
      rw [List.pairwise_cons] at hA hB
      have hab : a = b := by
        rcases List.mem_cons.1 ((h a).1 List.mem_cons_self) with h1 | h1
        · exact h1
        rcases List.mem_cons.1 ((h b).2 List.mem_cons_self) with h2 | h2
        · exact h2.symm
        have := hA.1 b h2
        have := hB.1 a h1
        omega
      subst hab
      congr 1
      refine ih hA.2 hB.2 fun x => ⟨fun hx => ?_, fun hx => ?_⟩
      · rcases List.mem_cons.1 ((h x).1 (List.mem_cons_of_mem _ hx)) with h1 | h1
        · subst h1; exact absurd (hA.1 x hx) (Nat.lt_irrefl _)
        · exact h1
      · rcases List.mem_cons.1 ((h x).2 (List.mem_cons_of_mem _ hx)) with h1 | h1
        · subst h1; exact absurd (hB.1 x hx) (Nat.lt_irrefl _)
        · exact h1

/-- The maps after a legal sequence of calls. -/
theorem seqProc_maps {dirOk : String → Bool} {fileOf : String → Nat} {p p' : SeqProc} {L : List (Nat × POp × PRes)}
    (h : Legal (SeqBehaves dirOk fileOf) p (L.map (·.2)) p') (f : Nat) : p'.maps f = (p.maps f).run (mutationsOn fileOf f L) := by
  generalize hl : L.map (·.2) = l at h
  induction h generalizing L with
  | nil σ => cases L with
    | nil => rfl
    | cons x L => cases hl
  | @cons σ σ' σ'' op r l hs rest ih =>
    cases L with
    | nil => cases hl
    | cons x L =>
      obtain ⟨pos, op', r'⟩ := x
      injection hl with h1 h2
      injection h1 with h1 h3
      subst h1
      subst h3
      have hstep : σ'.maps f = (σ.maps f).run (mutationsOn fileOf f [(pos, op', r')]) := by
        cases hs with
        | @call k d o r T hh hb =>
          cases o with
          | «mut» m =>
            obtain ⟨_, rfl⟩ := hb
            have : mutationsOn fileOf f [(pos, .on k d (.mut m), .res r)] = if fileOf d = f then [m] else [] := by
              simp only [mutationsOn, List.filterMap_cons, mutationOn, List.filterMap_nil]
              split <;> rename_i h <;> split at h <;> simp_all
            rw [this]
            by_cases hf : f = fileOf d
            · subst hf; simp [Store.run]
            · simp only [if_neg hf, if_neg (fun e => hf (Eq.symm e))]; rfl
          | get key tok =>
            obtain ⟨_, rfl⟩ := hb
            have : mutationsOn fileOf f [(pos, .on k d (.get key tok), .res r)] = [] := rfl
            rw [this]
            by_cases hf : f = fileOf d
            · subst hf; simp [Store.run]
            · simp only [if_neg hf]; rfl
        | _ => rfl
      have hc : mutationsOn fileOf f ((pos, op', r') :: L) = mutationsOn fileOf f [(pos, op', r')] ++ mutationsOn fileOf f L := by
        simp only [mutationsOn, ← List.filterMap_append, List.singleton_append]
      rw [ih h2, hstep, hc, run_append]

/-- A legal sequence, cut in two. -/
theorem Legal.split {Op Res S : Type} {Step : S → Op → Res → S → Prop} {σ σ'' : S} {l l' : List (Op × Res)} (h : Legal Step σ (l ++ l') σ'') :
    ∃ σ', Legal Step σ l σ' ∧ Legal Step σ' l' σ'' := by
  induction l generalizing σ with
  | nil => exact ⟨σ, .nil σ, h⟩
  | cons x l ih =>
    cases h with
    | cons h rest =>
      obtain ⟨σ', h1, h2⟩ := ih rest
      exact ⟨σ', .cons h h1, h2⟩

theorem take_filterMap {α β : Type} (g : α → Option β) (h : List α) (i : Nat) :
    (h.take i).filterMap g = ((List.range i).filterMap fun q => (h[q]?).bind fun e => (g e).map fun m => (q, m)).map (·.2) := by
  induction i with
  | zero => simp
  | succ i ih =>
    rw [List.take_add_one, List.filterMap_append, ih, List.range_succ, List.filterMap_append, List.map_append]
    congr 1
    rw [List.filterMap_cons, List.filterMap_nil]
    cases h[i]? with
    | none => rfl
    | some e => cases hg : g e <;> simp [hg]

theorem mutationOn_some {fileOf : String → Nat} {f : Nat} {x : Nat × POp × PRes} {m : Mutation} (hm : mutationOn fileOf f x = some m) :
    ∃ k d, x.2.1 = .on k d (.mut m) ∧ fileOf d = f := by
  obtain ⟨pos, op, r'⟩ := x
  unfold mutationOn at hm
  split at hm
  · rename_i heq
    injection heq with _ heq; injection heq with heq _
    split at hm
    · injection hm with hm; subst hm; exact ⟨_, _, heq, by assumption⟩
    · cases hm
  · cases hm

/-- The mutations of a part of a linearization, when it has those made before position `N` and its order is that in which they were made. -/
theorem mutations_in_order {fileOf : String → Nat} {f N : Nat} {M : List (Nat × POp × PRes)} {h : List (HEv POp PRes)}
    (hinc : M.Pairwise fun x y => ∀ m m', mutationOn fileOf f x = some m → mutationOn fileOf f y = some m' → x.1 < y.1)
    (hin : ∀ x ∈ M, ∀ m, mutationOn fileOf f x = some m → x.1 < N ∧ ∃ t, h[x.1]? = some (.inv t x.2.1))
    (hall : ∀ (q t k : Nat) (d : String) (m : Mutation), q < N → h[q]? = some (.inv t (.on k d (.mut m))) → fileOf d = f → ∃ r, (q, .on k d (.mut m), r) ∈ M) :
    mutationsOn fileOf f M = (h.take N).filterMap (madeOn fileOf f) := by
  have hA : mutationsOn fileOf f M = (M.filterMap fun x => (mutationOn fileOf f x).map fun m => (x.1, m)).map (·.2) := by
    rw [List.map_filterMap, mutationsOn]
    congr 1
    funext x
    cases mutationOn fileOf f x <;> rfl
  rw [hA, take_filterMap (madeOn fileOf f)]
  congr 1
  apply eq_of_increasing
  · rw [List.pairwise_filterMap]
    refine hinc.imp fun {x y} hxy a ha b hb => ?_
    rw [Option.map_eq_some_iff] at ha hb
    obtain ⟨m, hm, rfl⟩ := ha
    obtain ⟨m', hm', rfl⟩ := hb
    exact hxy m m' hm hm'
  · rw [List.pairwise_filterMap]
    refine List.Pairwise.imp_of_mem ?_ List.pairwise_lt_range
    intro b c _ _ hbc x hx y hy
    simp only [Option.bind_eq_some_iff, Option.map_eq_some_iff] at hx hy
    obtain ⟨_, _, _, _, rfl⟩ := hx
    obtain ⟨_, _, _, _, rfl⟩ := hy
    exact hbc
  · rintro ⟨q, m⟩
    simp only [List.mem_filterMap, List.mem_range, Option.map_eq_some_iff, Option.bind_eq_some_iff, Prod.mk.injEq]
    constructor
    · rintro ⟨x, hx, m', hm, rfl, rfl⟩
      obtain ⟨k1, d1, e1, e2⟩ := mutationOn_some hm
      obtain ⟨hlt, t, g⟩ := hin x hx m' hm
      exact ⟨x.1, hlt, _, g, m', by simp [madeOn, e1, e2], rfl, rfl⟩
    · rintro ⟨q', hq, e, he, m', hm, rfl, rfl⟩
      unfold madeOn at hm
      split at hm
      · rename_i t1 k1 d1 m1
        split at hm
        · rename_i hf
          injection hm with hm; subst hm
          obtain ⟨r, hr⟩ := hall _ _ _ _ _ hq he hf
          exact ⟨_, hr, m1, by simp [mutationOn, hf], rfl, rfl⟩
        · cases hm
      · cases hm

/-- With the calls made one at a time, the order of a linearization is the order in which they were made. -/
theorem lin_increasing {dirOk : String → Bool} {fileOf : String → Nat} {p last : SeqProc} {h : List (HEv POp PRes)} {L : List (Nat × POp × PRes)}
    (hL : Linearization (SeqBehaves dirOk fileOf) p h L last) (hone : OneAtATime h) (f : Nat) :
    L.Pairwise fun x y => ∀ m m', mutationOn fileOf f x = some m → mutationOn fileOf f y = some m' → x.1 < y.1 := by
  rw [List.pairwise_iff_getElem]
  intro b c hb hc hbc m m' hm hm'
  obtain ⟨k1, d1, e1, _⟩ := mutationOn_some hm
  obtain ⟨k2, d2, e2, _⟩ := mutationOn_some hm'
  rcases Nat.lt_trichotomy L[b].1 L[c].1 with hlt | heq | hgt
  · exact hlt
  · have hn := hL.distinct
    unfold List.Nodup at hn
    rw [List.pairwise_iff_getElem] at hn
    have := hn b c (by simpa using hb) (by simpa using hc) hbc
    simp only [List.getElem_map] at this
    exact absurd heq this
  · obtain ⟨t1, g1⟩ := hL.invoked _ (List.getElem_mem hb)
    obtain ⟨t2, g2⟩ := hL.invoked _ (List.getElem_mem hc)
    obtain ⟨m1, r1, g3, g4⟩ := hone _ _ _ _ _ _ hgt g2 g1 (by rw [e2]; simp) (by rw [e1]; simp)
    have := hL.order c b _ _ m1 _ r1 (List.getElem?_eq_getElem hc) (List.getElem?_eq_getElem hb) g3 g4
    omega

/-- A program that makes its calls one at a time reads what it wrote, if its history is linearizable. -/
theorem reads_of_linearizable {dirOk : String → Bool} {fileOf : String → Nat} {S0 : Nat → Store} {h : List (HEv POp PRes)}
    (hl : Linearizable (SeqBehaves dirOk fileOf) { maps := S0 } h) (hone : OneAtATime h) : ReadsOwnWrites fileOf S0 h := by
  obtain ⟨L, last, hL⟩ := hl
  intro i j k d key tok r hret
  obtain ⟨a, ha⟩ := List.getElem?_of_mem (hL.complete _ _ _ _ hret)
  have hget : h[i]? = some (.inv hret.choose (.on k d (.get key tok))) := hret.choose_spec.1
  have hcut : L.map (·.2) = (L.take a).map (·.2) ++ ((.on k d (.get key tok), r) :: (L.drop (a + 1)).map (·.2)) := by
    have : L = L.take a ++ ((i, .on k d (.get key tok), r) :: L.drop (a + 1)) := by
      rw [← (List.getElem?_eq_some_iff.1 ha).2, ← List.drop_eq_getElem_cons, List.take_append_drop]
    rw [show L.map (·.2) = (L.take a ++ ((i, .on k d (.get key tok), r) :: L.drop (a + 1))).map (·.2) from congrArg _ this, List.map_append, List.map_cons]
  have hleg := hL.legal
  rw [hcut] at hleg
  obtain ⟨p, h1, h2⟩ := Legal.split hleg
  cases h2 with
  | cons hs rest =>
    cases hs with
    | call _ hb =>
      rw [hb.1, seqProc_maps h1]
      congr 3
      refine mutations_in_order (List.Pairwise.sublist (List.take_sublist _ _) (lin_increasing hL hone _)) ?_ ?_
      · intro x hx m hm
        obtain ⟨k1, d1, e1, e2⟩ := mutationOn_some hm
        obtain ⟨b, hb⟩ := List.getElem?_of_mem hx
        rw [List.getElem?_take] at hb
        split at hb
        · rename_i hba
          obtain ⟨t1, g1⟩ := hL.invoked _ (List.mem_of_getElem? hb)
          refine ⟨?_, t1, g1⟩
          rcases Nat.lt_trichotomy x.1 i with hlt | heq | hgt
          · exact hlt
          · rw [heq, hget] at g1
            injection g1 with g1; injection g1 with _ g1
            rw [e1] at g1; cases g1
          · obtain ⟨m1, r1, g3, g4⟩ := hone _ _ _ _ _ _ hgt hget g1 (by simp) (by rw [e1]; simp)
            have := hL.order a b _ _ m1 _ r1 ha hb g3 g4
            omega
        · cases hb
      · intro q t1 k1 d1 m1 hq he hf
        obtain ⟨m2, r2, g3, g4⟩ := hone _ _ _ _ _ _ hq he hget (by simp) (by simp)
        obtain ⟨b, hb⟩ := List.getElem?_of_mem (hL.complete _ _ _ _ g3)
        have hba := hL.order b a _ _ m2 _ r2 hb ha g3 g4
        exact ⟨r2, List.mem_of_getElem? (i := b) (by rw [List.getElem?_take, if_pos hba]; exact hb)⟩

/-- The calls on a directory in a linearization are the first ones made; all of them, if all have returned. -/
theorem lin_made {dirOk : String → Bool} {fileOf : String → Nat} {p last : SeqProc} {h : List (HEv POp PRes)} {L : List (Nat × POp × PRes)}
    (hL : Linearization (SeqBehaves dirOk fileOf) p h L last) (hone : OneAtATime h) (f : Nat) :
    (∃ N, mutationsOn fileOf f L = (h.take N).filterMap (madeOn fileOf f)) ∧
      ((∀ (i t k : Nat) (d : String) (m : Mutation), h[i]? = some (.inv t (.on k d (.mut m))) → fileOf d = f → ∃ j r, Spec.Returned h i j (.on k d (.mut m)) r) →
        mutationsOn fileOf f L = h.filterMap (madeOn fileOf f)) := by
  have hin : ∀ x ∈ L, ∃ t, h[x.1]? = some (.inv t x.2.1) := fun x hx => hL.invoked x hx
  have hall : (∀ (i t k : Nat) (d : String) (m : Mutation), h[i]? = some (.inv t (.on k d (.mut m))) → fileOf d = f → ∃ r, (i, .on k d (.mut m), r) ∈ L) →
      mutationsOn fileOf f L = h.filterMap (madeOn fileOf f) := by
    intro hr
    have := mutations_in_order (N := h.length) (h := h) (lin_increasing hL hone f)
      (fun x hx m _ => by obtain ⟨t, g⟩ := hin x hx; exact ⟨lt_of_getElem? g, t, g⟩)
      (fun q t k d m _ g hf => hr q t k d m g hf)
    rw [List.take_length] at this
    exact this
  refine ⟨?_, fun hr => hall fun i t k d m g hf => ?_⟩
  · by_cases hr : ∀ (i t k : Nat) (d : String) (m : Mutation), h[i]? = some (.inv t (.on k d (.mut m))) → fileOf d = f → ∃ r, (i, .on k d (.mut m), r) ∈ L
    · exact ⟨h.length, by rw [List.take_length]; exact hall hr⟩
    · simp only [Classical.not_forall] at hr
      obtain ⟨i, t, k, d, m, g, hf, hr⟩ := hr
      have hno : ∀ j r, ¬Spec.Returned h i j (.on k d (.mut m)) r := fun j r hj => hr ⟨r, hL.complete _ _ _ _ hj⟩
      refine ⟨i, mutations_in_order (lin_increasing hL hone f) ?_ ?_⟩
      · intro x hx m' hm
        obtain ⟨k1, d1, e1, e2⟩ := mutationOn_some hm
        obtain ⟨t1, g1⟩ := hin x hx
        refine ⟨?_, t1, g1⟩
        rcases Nat.lt_trichotomy x.1 i with hlt | heq | hgt
        · exact hlt
        · obtain ⟨pos, op, r'⟩ := x
          simp only at heq e1 g1
          subst heq
          rw [g] at g1
          injection g1 with g1; injection g1 with _ g1
          rw [← g1] at hx
          exact absurd ⟨r', hx⟩ hr
        · obtain ⟨m1, r1, g3, g4⟩ := hone _ _ _ _ _ _ hgt g g1 (by simp) (by rw [e1]; simp)
          exact absurd g3 (hno _ _)
      · intro q t1 k1 d1 m1 hq he hf'
        obtain ⟨m2, r2, g3, g4⟩ := hone _ _ _ _ _ _ hq he g (by simp) (by simp)
        exact ⟨r2, hL.complete _ _ _ _ g3⟩
  · obtain ⟨j, r, hj⟩ := hr i t k d m g hf
    exact ⟨r, hL.complete _ _ _ _ hj⟩

/-- Going on with a call leaves the thread in that call, and the others where they are. -/
theorem Proc.go_th {ι : Type} {S : Sys ι} {s s' : Proc ι} {t : Nat} {i : ι} (h : s.go S t i = some s') :
    ∃ op st st', s.th t = .busy op st ∧ s'.th t = .busy op st' ∧ ∀ u, u ≠ t → s'.th u = s.th u := by
  have key : ∀ {op : POp} {st st' : Stage} {w : World ι}, s.th t = .busy op st → s' = ({ s with w } : Proc ι).goto t (.busy op st') →
      ∃ op st st', s.th t = .busy op st ∧ s'.th t = .busy op st' ∧ ∀ u, u ≠ t → s'.th u = s.th u := by
    intro op st st' w ht hs
    subst hs
    exact ⟨op, st, st', ht, by simp [goto], fun u hu => by simp [goto, hu]⟩
  have hop : ∀ {d : String} {st : Stage} {x : World ι × WRes}, s.th t = .busy (.new d) st → s.opened t d x = some s' →
      ∃ op st st', s.th t = .busy op st ∧ s'.th t = .busy op st' ∧ ∀ u, u ≠ t → s'.th u = s.th u := by
    intro d st x ht hx
    obtain ⟨w, r⟩ := x
    cases r <;> simp only [opened, Option.some.injEq, reduceCtorEq] at hx <;> exact key ht hx.symm
  have hwk : ∀ {op : POp} {st : Stage} {x : World ι × WRes}, s.th t = .busy op st → s.worked t op x = some s' →
      ∃ op st st', s.th t = .busy op st ∧ s'.th t = .busy op st' ∧ ∀ u, u ≠ t → s'.th u = s.th u := by
    intro op st x ht hx
    obtain ⟨w, r⟩ := x
    cases r <;> simp only [worked, Option.some.injEq, reduceCtorEq] at hx <;> exact key ht hx.symm
  unfold go at h
  split at h
  · rename_i d ht
    rw [Option.bind_eq_some_iff] at h
    obtain ⟨x, _, h⟩ := h
    exact hop ht h
  · rename_i d ht
    rw [Option.bind_eq_some_iff] at h
    obtain ⟨x, _, h⟩ := h
    exact hop ht h
  · rename_i k d m ht
    split at h
    · cases h
    split at h
    · rw [Option.bind_eq_some_iff] at h
      obtain ⟨x, _, h⟩ := h
      exact hwk ht h
    · cases h
  · rename_i k d m ht
    split at h
    · cases h
    rw [Option.bind_eq_some_iff] at h
    obtain ⟨x, _, h⟩ := h
    exact hwk ht h
  · rename_i k d key' tok ht
    split at h
    · split at h
      · injection h with h; subst h
        exact ⟨_, _, .locked, ht, if_pos rfl, fun u hu => if_neg hu⟩
      · cases h
    · cases h
  · rename_i k d key' tok ht
    split at h
    · rename_i x _
      injection h with h; subst h
      exact ⟨_, _, .done (.res (x.getAs key' tok fun bs => .ok (some bs))), ht, if_pos rfl, fun u hu => if_neg hu⟩
    · cases h
  · rename_i k d ht
    split at h
    · injection h with h; exact key ht h.symm
    · injection h with h; exact key ht h.symm
    · cases h
  · rename_i k d r ht
    split at h
    · injection h with h; exact key ht h.symm
    · cases h
  · rename_i k d o r ht
    split at h
    · cases h
    split at h
    · injection h with h; exact key (w := s.w) ht h.symm
    · split at h
      · injection h with h; exact key (w := s.w) ht h.symm
      · cases h
  · cases h

/-- Invariant of a run in which only thread `t0` makes calls other than drops. -/
structure OneThread {ι : Type} (t0 : Nat) (s : Proc ι) (h : List (HEv POp PRes)) : Prop where
  apart : ∀ (i j : Nat) (op op' : POp), i < j → h[i]? = some (.inv t0 op) → h[j]? = some (.inv t0 op') → ∃ m r, Spec.Returned h i m op r ∧ m < j
  only : ∀ (i t : Nat) (op : POp), h[i]? = some (.inv t op) → (∀ k d, op ≠ .drop k d) → t = t0
  all : ∀ (i : Nat) (op : POp), h[i]? = some (.inv t0 op) → (∃ m r, Spec.Returned h i m op r) ∨ (Pending h t0 i op ∧ ∃ st, s.th t0 = .busy op st)

theorem OneThread.step {ι : Type} {S : Sys ι} {t0 : Nat} {s s' : Proc ι} {h : List (HEv POp PRes)} {e : PrEv ι} {v : Option (HEv POp PRes)}
    (hi : OneThread t0 s h) (he : ∀ t op, e = .call t op → (∀ k d, op ≠ .drop k d) → t = t0) (hst : Proc.step S s e = some (s', v)) :
    OneThread t0 s' (h ++ v.toList) := by
  have quiet : v = none → (∀ op st, s.th t0 = .busy op st → ∃ st', s'.th t0 = .busy op st') → OneThread t0 s' (h ++ v.toList) := by
    intro hv hth
    subst hv
    simp only [Option.toList, List.append_nil]
    refine ⟨hi.apart, hi.only, fun i op ho => ?_⟩
    rcases hi.all i op ho with g | ⟨g1, st, g2⟩
    · exact .inl g
    · exact .inr ⟨g1, hth op st g2⟩
  cases e with
  | go t i =>
    simp only [Proc.step] at hst
    rw [Option.map_eq_some_iff] at hst
    obtain ⟨s1, hg, hst⟩ := hst
    injection hst with h1 h2; subst h1
    refine quiet h2.symm fun op st hb => ?_
    obtain ⟨op', st1, st2, g1, g2, g3⟩ := Proc.go_th hg
    by_cases ht : t0 = t
    · subst ht
      rw [hb] at g1; injection g1 with g1 _; subst g1
      exact ⟨st2, g2⟩
    · exact ⟨st, by rw [g3 t0 ht]; exact hb⟩
  | io o ord =>
    simp only [Proc.step] at hst
    rw [Option.map_eq_some_iff] at hst
    obtain ⟨_, _, hst⟩ := hst
    injection hst with h1 h2; subst h1
    exact quiet h2.symm fun op st hb => ⟨st, hb⟩
  | call t op0 =>
    simp only [Proc.step] at hst
    split at hst
    · rename_i hidle
      injection hst with hst; injection hst with h1 h2; subst h1; subst h2
      simp only [Option.toList]
      refine ⟨?_, ?_, ?_⟩
      · intro i j op op' hij h1 h2
        rcases getElem?_snoc h2 with ⟨hlt, h2⟩ | ⟨rfl, h2'⟩
        · rw [List.getElem?_append_left (by omega)] at h1
          obtain ⟨m, r, g1, g2⟩ := hi.apart i j op op' hij h1 h2
          exact ⟨m, r, returned_mono g1, g2⟩
        · injection h2' with e1 e2; subst e1
          rw [List.getElem?_append_left hij] at h1
          rcases hi.all i op h1 with ⟨m, r, g⟩ | ⟨_, st, g⟩
          · exact ⟨m, r, returned_mono g, by obtain ⟨_, _, g2, _⟩ := g; exact lt_of_getElem? g2⟩
          · rw [hidle.1] at g; cases g
      · intro i u op h1 h2
        rcases getElem?_snoc h1 with ⟨_, h1⟩ | ⟨_, h1⟩
        · exact hi.only i u op h1 h2
        · injection h1 with e1 e2
          subst e1; subst e2
          exact he _ _ rfl h2
      · intro i op h1
        rcases getElem?_snoc h1 with ⟨_, h1⟩ | ⟨rfl, h1'⟩
        · rcases hi.all i op h1 with ⟨m, r, g⟩ | ⟨g1, st, g2⟩
          · exact .inl ⟨m, r, returned_mono g⟩
          · by_cases ht : t = t0
            · subst ht; rw [hidle.1] at g2; cases g2
            · exact .inr ⟨pending_snoc g1 ht, st, (if_neg (fun e => ht (Eq.symm e))).trans g2⟩
        · injection h1' with e1 e2; subst e1; subst e2
          exact .inr ⟨pending_new _ _ _, .start, by simp [Proc.goto]⟩
    · cases hst
  | ret t =>
    simp only [Proc.step] at hst
    split at hst
    · rename_i op0 r0 hb
      injection hst with hst; injection hst with h1 h2; subst h1; subst h2
      simp only [Option.toList]
      refine ⟨?_, ?_, ?_⟩
      · intro i j op op' hij h1 h2
        rcases getElem?_snoc h2 with ⟨hlt, h2⟩ | ⟨_, h2⟩
        · rw [List.getElem?_append_left (by omega)] at h1
          obtain ⟨m, r, g1, g2⟩ := hi.apart i j op op' hij h1 h2
          exact ⟨m, r, returned_mono g1, g2⟩
        · cases h2
      · intro i u op h1 h2
        rcases getElem?_snoc h1 with ⟨_, h1⟩ | ⟨_, h1⟩
        · exact hi.only i u op h1 h2
        · cases h1
      · intro i op h1
        rcases getElem?_snoc h1 with ⟨_, h1⟩ | ⟨_, h1⟩
        · rcases hi.all i op h1 with ⟨m, r, g⟩ | ⟨g1, st, g2⟩
          · exact .inl ⟨m, r, returned_mono g⟩
          · by_cases ht : t = t0
            · subst ht
              refine .inl ⟨h.length, r0, t, ?_, by simp, lt_of_getElem? g1.1, ?_⟩
              · rw [List.getElem?_append_left (lt_of_getElem? g1.1)]; exact g1.1
              · intro k e hk1 hk2 hk
                rw [List.getElem?_append_left hk2] at hk
                exact g1.2 k e hk1 hk
            · exact .inr ⟨pending_snoc g1 ht, st, (if_neg (fun e => ht (Eq.symm e))).trans g2⟩
        · cases h1
    · cases hst

/-- A program that calls from one thread only makes its calls one at a time. -/
theorem oneAtATime_of_thread {ι : Type} {S : Sys ι} {t0 : Nat} {w : World ι} {es : List (PrEv ι)} (hes : ∀ t op, .call t op ∈ es → (∀ k d, op ≠ .drop k d) → t = t0)
    {s : Proc ι} {h : List (HEv POp PRes)} (hrun : Proc.run S { w } es = some (s, h)) : OneAtATime h := by
  have key : ∀ (es : List (PrEv ι)), (∀ t op, .call t op ∈ es → (∀ k d, op ≠ .drop k d) → t = t0) → ∀ {s s' : Proc ι} {h h' : List (HEv POp PRes)},
      Proc.run S s es = some (s', h') → OneThread t0 s h → OneThread t0 s' (h ++ h') := by
    intro es
    induction es with
    | nil =>
      intro _ s s' h h' hr hi
      simp only [Proc.run, Option.some.injEq, Prod.mk.injEq] at hr
      obtain ⟨rfl, rfl⟩ := hr
      rw [List.append_nil]; exact hi
    | cons e es ih =>
      intro hes s s' h h' hr hi
      simp only [Proc.run] at hr
      split at hr
      · cases hr
      rename_i s1 v hst
      split at hr
      · cases hr
      rename_i s2 h4 hrun
      simp only [Option.some.injEq, Prod.mk.injEq] at hr
      obtain ⟨rfl, rfl⟩ := hr
      rw [← List.append_assoc]
      exact ih (fun t op hm => hes t op (List.mem_cons_of_mem _ hm)) hrun
        (hi.step (fun t op he => hes t op (by rw [he]; exact List.mem_cons_self)) hst)
  have h1 := key es hes hrun (h := []) ⟨by simp, by simp, by simp⟩
  rw [List.nil_append] at h1
  intro i j t u op op' hij hi hj ho ho'
  have e1 := h1.only i t op hi ho
  have e2 := h1.only j u op' hj ho'
  subst e1
  subst e2
  exact h1.apart i j op op' hij hi hj

/-- All `MMKV` objects of directory `f` have been finalized: every `new` has returned, every handle it returned has been dropped, and the drops have returned. -/
def AllFinalized (fileOf : String → Nat) (h : List (HEv POp PRes)) (f : Nat) : Prop :=
  (∀ (i t : Nat) (d : String), h[i]? = some (.inv t (.new d)) → fileOf d = f →
    ∃ j r, Spec.Returned h i j (.new d) r ∧ ∀ k, r = .handle k → ∃ i' j' r', Spec.Returned h i' j' (.drop k d) r') ∧
  ∀ (i t k : Nat) (d : String), h[i]? = some (.inv t (.drop k d)) → fileOf d = f → ∃ j r, Spec.Returned h i j (.drop k d) r

theorem legal_dropped {dirOk : String → Bool} {fileOf : String → Nat} {p p' : SeqProc} {l : List (POp × PRes)} (h : Legal (SeqBehaves dirOk fileOf) p l p') :
    (∀ (k : Nat) (d : String), p.handles[k]? = some (d, false) → p'.handles[k]? = some (d, false)) ∧ (∀ (k : Nat) (d : String) (r : PRes), (POp.drop k d, r) ∈ l → p'.handles[k]? = some (d, false)) ∧
      ∀ (k : Nat) (d : String) (b : Bool), p'.handles[k]? = some (d, b) → (∃ b', p.handles[k]? = some (d, b')) ∨ (POp.new d, PRes.handle k) ∈ l := by
  induction h with
  | nil σ => exact ⟨fun _ _ h => h, fun _ _ _ h => absurd h List.not_mem_nil, fun k d b h => .inl ⟨b, h⟩⟩
  | @cons σ σ' σ'' op r l hs rest ih =>
    obtain ⟨i1, i2, i3⟩ := ih
    have hstep : (∀ (k : Nat) (d : String), σ.handles[k]? = some (d, false) → σ'.handles[k]? = some (d, false)) ∧ (∀ (k : Nat) (d : String), op = .drop k d → σ'.handles[k]? = some (d, false)) ∧
        ∀ (k : Nat) (d : String) (b : Bool), σ'.handles[k]? = some (d, b) → (∃ b', σ.handles[k]? = some (d, b')) ∨ (op = .new d ∧ r = .handle k) := by
      cases hs with
      | @new d hbr hd =>
        refine ⟨fun k e he => ?_, fun k e he => (by cases he), fun k e b he => ?_⟩
        · show (σ.handles ++ [(d, true)])[k]? = _
          rw [List.getElem?_append_left (lt_of_getElem? he)]; exact he
        · rcases getElem?_snoc he with ⟨_, he⟩ | ⟨rfl, he'⟩
          · exact .inl ⟨b, he⟩
          · injection he' with he' _; subst he'; exact .inr ⟨rfl, rfl⟩
      | @refused d => exact ⟨fun _ _ h => h, fun k e he => (by cases he), fun k e b he => .inl ⟨b, he⟩⟩
      | @broken d => exact ⟨fun _ _ h => h, fun k e he => (by cases he), fun k e b he => .inl ⟨b, he⟩⟩
      | call => exact ⟨fun _ _ h => h, fun k e he => (by cases he), fun k e b he => .inl ⟨b, he⟩⟩
      | @drop k d hk =>
        refine ⟨fun k' e he => ?_, fun k' e he => ?_, fun k' e b he => ?_⟩
        · have : k ≠ k' := by rintro rfl; rw [hk] at he; cases he
          show (σ.handles.set k (d, false))[k']? = _
          rw [List.getElem?_set_ne this]; exact he
        · injection he with h1 h2; subst h1; subst h2
          show (σ.handles.set k (d, false))[k]? = _
          rw [List.getElem?_set_self (lt_of_getElem? hk)]
        · by_cases hkk : k = k'
          · subst hkk
            have he : (σ.handles.set k (d, false))[k]? = some (e, b) := he
            rw [List.getElem?_set_self (lt_of_getElem? hk)] at he
            injection he with he; injection he with he _; subst he
            exact .inl ⟨true, hk⟩
          · have he : (σ.handles.set k (d, false))[k']? = some (e, b) := he
            rw [List.getElem?_set_ne hkk] at he
            exact .inl ⟨b, he⟩
    refine ⟨fun k d hk => i1 k d (hstep.1 k d hk), fun k d r' hm => ?_, fun k d b hk => ?_⟩
    · rcases List.mem_cons.1 hm with hm | hm
      · injection hm with hm _
        exact i1 k d (hstep.2.1 k d hm.symm)
      · exact i2 k d r' hm
    · rcases i3 k d b hk with ⟨b', h1⟩ | h1
      · rcases hstep.2.2 k d b' h1 with h2 | ⟨rfl, rfl⟩
        · exact .inl h2
        · exact .inr List.mem_cons_self
      · exact .inr (List.mem_cons_of_mem _ h1)

theorem nobodyOn_of_finalized {dirOk : String → Bool} {fileOf : String → Nat} {S0 : Nat → Store} {last : SeqProc} {h : List (HEv POp PRes)} {L : List (Nat × POp × PRes)}
    (hL : Linearization (SeqBehaves dirOk fileOf) { maps := S0 } h L last) {f : Nat} (hf : AllFinalized fileOf h f) : NobodyOn fileOf h last f := by
  obtain ⟨_, h2, h3⟩ := legal_dropped hL.legal
  constructor
  · intro d hd e
    obtain ⟨k, hk⟩ := List.getElem?_of_mem hd
    rcases h3 k d true hk with ⟨_, h4⟩ | h4
    · cases h4
    obtain ⟨⟨pos, op, r⟩, h5, h6⟩ := List.mem_map.1 h4
    injection h6 with e1 e2
    subst e1; subst e2
    obtain ⟨t, h7⟩ := hL.invoked _ h5
    obtain ⟨j, r, h8, h9⟩ := hf.1 pos t d h7 e
    have hr : r = .handle k := by
      obtain ⟨a, ha⟩ := List.getElem?_of_mem h5
      obtain ⟨b, hb⟩ := List.getElem?_of_mem (hL.complete _ _ _ _ h8)
      have hab : a = b := by
        have hn := hL.distinct
        unfold List.Nodup at hn
        rw [List.pairwise_iff_getElem] at hn
        have key : ∀ (a b : Nat) (x y : Nat × POp × PRes), L[a]? = some x → L[b]? = some y → x.1 = y.1 → a < b → False := by
          intro a b x y ha hb hxy hlt
          have la := lt_of_getElem? ha
          have lb := lt_of_getElem? hb
          have := hn a b (by simpa using la) (by simpa using lb) hlt
          simp only [List.getElem_map] at this
          rw [List.getElem?_eq_getElem la] at ha; rw [List.getElem?_eq_getElem lb] at hb
          injection ha with ha; injection hb with hb
          rw [ha, hb] at this
          exact this hxy
        rcases Nat.lt_trichotomy a b with hlt | heq | hgt
        · exact absurd hlt fun hlt => key a b _ _ ha hb rfl hlt
        · exact heq
        · exact absurd hgt fun hgt => key b a _ _ hb ha rfl hgt
      subst hab
      rw [ha] at hb
      injection hb with hb; injection hb with _ hb; injection hb with _ hb
      exact hb.symm
    obtain ⟨i', j', r', h10⟩ := h9 k hr
    have := h2 k d r' (List.mem_map.2 ⟨_, hL.complete _ _ _ _ h10, rfl⟩)
    rw [hk] at this
    cases this
  · intro u j k d hp e
    obtain ⟨j', r, t, g1, g2, g3, _⟩ := hf.2 j u k d hp.1 e
    rw [hp.1] at g1
    injection g1 with g1; injection g1 with g1 _; subst g1
    exact hp.2 j' _ g3 g2 rfl

theorem Kotlin.run_proc {ι : Type} {S : Sys ι} {fin : Nat} {s : Proc ι} {es : List (PrEv ι)} {x : Proc ι × List (HEv POp PRes)} (h : Kotlin.run S fin s es = some x) :
    Proc.run S s es = some x := by
  unfold Kotlin.run at h
  split at h
  · exact h
  · cases h

/-- **C90**, with no `new` made while the finalizer is closing an object of the same directory, unless another object of it is still in use (the claim without this is
refuted below). -/
theorem C90_partial {S : Sys Unit} {page K fin : Nat} (hp : Plain S page) {names : Nat → Option Nat} {inodes : List Bytes} (hg : GoodNames names inodes)
    {S0 : Nat → Store} (h0 : ∀ f, FileMap page K (((start names inodes : World Unit).fileAt f).getD []) (S0 f))
    {es : List (PrEv Unit)} {s : Proc Unit} {h : List (HEv POp PRes)} (hrun : Kotlin.run S fin { w := start names inodes } es = some (s, h))
    (hone : OneAtATime h) (hfit : CallsFit page h) (hio : ∀ o ord, .io o ord ∈ es → ∀ l, (ord l).Perm l) (hapart : Apart h) (hspell : OneSpelling S.fileOf h)
    (hroom : page * (K + es.length) + 8 < 2 ^ 64) : ReadsOwnWrites S.fileOf S0 h :=
  reads_of_linearizable (C87_linearizable hp hg h0 (Kotlin.run_proc hrun) hfit hio hapart hspell hroom) hone

/-- **C90**, what the files hold, under the same condition: if the process dies at any moment between two background writes, a directory shows what a first part of the
calls made on it, in the order they were made, leads to; all of them, if they have returned and every `MMKV` object of the directory has been finalized. -/
theorem C90_saved_partial {S : Sys Unit} {page K fin : Nat} (hp : Plain S page) {names : Nat → Option Nat} {inodes : List Bytes} (hg : GoodNames names inodes)
    {S0 : Nat → Store} (h0 : ∀ f, FileMap page K (((start names inodes : World Unit).fileAt f).getD []) (S0 f))
    {es : List (PrEv Unit)} {s : Proc Unit} {h : List (HEv POp PRes)} (hrun : Kotlin.run S fin { w := start names inodes } es = some (s, h))
    (hone : OneAtATime h) (hfit : CallsFit page h) (hio : ∀ o ord, .io o ord ∈ es → ∀ l, (ord l).Perm l) (hapart : Apart h) (hspell : OneSpelling S.fileOf h)
    (hroom : page * (K + es.length) + 8 < 2 ^ 64) (f : Nat) :
    ∃ x, Inst.openAt plain () page ((s.w.fileAt f).getD []) = some x ∧
      (∃ n, x.Shows ((S0 f).run ((h.filterMap (madeOn S.fileOf f)).take n))) ∧
      ((∀ (i t k : Nat) (d : String) (m : Mutation), h[i]? = some (.inv t (.on k d (.mut m))) → S.fileOf d = f → ∃ j r, Spec.Returned h i j (.on k d (.mut m)) r) →
        AllFinalized S.fileOf h f → x.Shows ((S0 f).run (h.filterMap (madeOn S.fileOf f)))) := by
  obtain ⟨L, last, hL, _, hs⟩ := C87_saved hp hg h0 (Kotlin.run_proc hrun) hfit hio hapart hspell hroom
  obtain ⟨hm, n, x, hx, h1, h2⟩ := hs f
  obtain ⟨⟨N, hN⟩, hall⟩ := lin_made hL hone f
  refine ⟨x, hx, ?_, fun hr hfin => ?_⟩
  · have : h.filterMap (madeOn S.fileOf f) = (h.take N).filterMap (madeOn S.fileOf f) ++ (h.drop N).filterMap (madeOn S.fileOf f) := by
      rw [← List.filterMap_append, List.take_append_drop]
    refine ⟨min n (mutationsOn S.fileOf f L).length, ?_⟩
    rw [this, ← hN, List.take_append_of_le_length (Nat.min_le_right _ _)]
    rcases Nat.le_total n (mutationsOn S.fileOf f L).length with hl | hl
    · rw [Nat.min_eq_left hl]; exact h1
    · rw [Nat.min_eq_right hl, List.take_of_length_le (Nat.le_refl _), ← List.take_of_length_le hl]; exact h1
  · rw [← hall hr, ← hm]
    exact h2 (nobodyOn_of_finalized hL hfin)

theorem Kotlin.runEnc_proc {S : Sys (Bytes × Bytes)} {keys : Nat → String} {fin : Nat} {s : EncThreads} {es : List (PrEv Bytes)} {x : EncThreads × List (HEv POp PRes)}
    (h : Kotlin.runEnc S keys fin s es = some x) : EncThreads.run S keys s es = some x := by
  unfold Kotlin.runEnc at h
  split at h
  · exact h
  · cases h

/-- **C90** with the `encryption` feature, under the same condition. -/
theorem C90_encrypted_partial {C : Cipher} {page K fin : Nat} (h8 : 8 ≤ page) (h32 : page < 2 ^ 32) {fileOf : String → Nat} {dirOk : String → Bool} {keys : Nat → String}
    (hkeys : ∀ f, (decodeKey (keys f)).isSome = true) {names : Nat → Option Nat} {inodes : List Bytes} (hg : GoodNames names inodes)
    {n0 : Nat → Option Bytes} {S0 : Nat → Store} (h0 : ∀ f, EncFileMap C page K (keys f) (EncThreads.dir ⟨{ w := start names inodes }, n0⟩ f) (S0 f))
    {es : List (PrEv Bytes)} {s : EncThreads} {h : List (HEv POp PRes)}
    (hrun : Kotlin.runEnc (encProcess C page fileOf dirOk) keys fin ⟨{ w := start names inodes }, n0⟩ es = some (s, h)) (hone : OneAtATime h)
    (hrand : ∀ t rand, .go t rand ∈ es → rand.length = 11) (hfit : EncCallsFit page h) (hio : ∀ o ord, .io o ord ∈ es → ∀ l, (ord l).Perm l)
    (hapart : Apart h) (hspell : OneSpelling fileOf h) (hroom : page * (K + es.length) + 8 < 2 ^ 64) (hctr : K + es.length < 2 ^ 32 - 1) :
    ReadsOwnWrites fileOf S0 h :=
  reads_of_linearizable (C87_encrypted_linearizable h8 h32 hkeys hg h0 (Kotlin.runEnc_proc hrun) hrand hfit hio hapart hspell hroom hctr) hone

/-- **C90** with the `encryption` feature, what the files hold: as `C90_saved_partial`; the directory is opened with its key, whatever `OsRng` yields then, and, should
the data file be missing, whatever is left of the nonce file. -/
theorem C90_encrypted_saved_partial {C : Cipher} {page K fin : Nat} (h8 : 8 ≤ page) (h32 : page < 2 ^ 32) {fileOf : String → Nat} {dirOk : String → Bool}
    {keys : Nat → String} (hkeys : ∀ f, (decodeKey (keys f)).isSome = true) {names : Nat → Option Nat} {inodes : List Bytes} (hg : GoodNames names inodes)
    {n0 : Nat → Option Bytes} {S0 : Nat → Store} (h0 : ∀ f, EncFileMap C page K (keys f) (EncThreads.dir ⟨{ w := start names inodes }, n0⟩ f) (S0 f))
    {es : List (PrEv Bytes)} {s : EncThreads} {h : List (HEv POp PRes)}
    (hrun : Kotlin.runEnc (encProcess C page fileOf dirOk) keys fin ⟨{ w := start names inodes }, n0⟩ es = some (s, h)) (hone : OneAtATime h)
    (hrand : ∀ t rand, .go t rand ∈ es → rand.length = 11) (hfit : EncCallsFit page h) (hio : ∀ o ord, .io o ord ∈ es → ∀ l, (ord l).Perm l)
    (hapart : Apart h) (hspell : OneSpelling fileOf h) (hroom : page * (K + es.length) + 8 < 2 ^ 64) (hctr : K + es.length < 2 ^ 32 - 1) (f : Nat)
    {rand : Bytes} {left : Option Bytes} (hr : rand.length = 11) (hleft : left = s.nonces f ∨ s.p.w.fileAt f = none) :
    ∃ x, openEnc C page (keys f) rand { s.dir f with nonceFile := left } = some x ∧
      (∃ n, x.Shows ((S0 f).run ((h.filterMap (madeOn fileOf f)).take n))) ∧
      ((∀ (i t k : Nat) (d : String) (m : Mutation), h[i]? = some (.inv t (.on k d (.mut m))) → fileOf d = f → ∃ j r, Spec.Returned h i j (.on k d (.mut m)) r) →
        AllFinalized fileOf h f → x.Shows ((S0 f).run (h.filterMap (madeOn fileOf f)))) := by
  obtain ⟨L, last, hL, _, hs⟩ := C87_encrypted_saved h8 h32 hkeys hg h0 (Kotlin.runEnc_proc hrun) hrand hfit hio hapart hspell hroom hctr
  obtain ⟨hm, hs⟩ := hs f
  obtain ⟨n, x, hx, h1, h2⟩ := hs rand left hr hleft
  obtain ⟨⟨N, hN⟩, hall⟩ := lin_made hL hone f
  refine ⟨x, hx, ?_, fun hr hfin => ?_⟩
  · have : h.filterMap (madeOn fileOf f) = (h.take N).filterMap (madeOn fileOf f) ++ (h.drop N).filterMap (madeOn fileOf f) := by
      rw [← List.filterMap_append, List.take_append_drop]
    refine ⟨min n (mutationsOn fileOf f L).length, ?_⟩
    rw [this, ← hN, List.take_append_of_le_length (Nat.min_le_right _ _)]
    rcases Nat.le_total n (mutationsOn fileOf f L).length with hl | hl
    · rw [Nat.min_eq_left hl]; exact h1
    · rw [Nat.min_eq_right hl, List.take_of_length_le (Nat.le_refl _), ← List.take_of_length_le hl]; exact h1
  · rw [← hall hr, ← hm]
    exact h2 (nobodyOn_of_finalized hL hfin)

/-! ### The claim without the condition -/

/-- The program makes an `MMKV`, puts "k", loses the object, makes another and gets "k".  The finalizer of the first runs between the second `new` and before it: it
takes the store from the list, the second `new` finds none and reads the file, and only then is the put written to it. -/
def kotlinRace : List (PrEv Unit) :=
  [.call 0 (.new "a"), .go 0 (), .go 0 (), .ret 0, .call 0 (.on 0 "a" (.mut (.put "k" ⟨0, [0, 0, 0, 7]⟩))), .go 0 (), .go 0 (), .go 0 (), .ret 0,
   .call 1 (.drop 0 "a"), .go 1 (), .call 0 (.new "a"), .go 0 (), .go 0 (), .ret 0, .go 1 ()] ++ List.replicate 5 (.io 0 id) ++ [.go 1 (), .ret 1,
   .call 0 (.on 1 "a" (.get "k" 0)), .go 0 (), .go 0 (), .ret 0]

/-- What an observer sees of it. -/
def kotlinRaceHist : List (HEv POp PRes) :=
  [.inv 0 (.new "a"), .res 0 (.handle 0), .inv 0 (.on 0 "a" (.mut (.put "k" ⟨0, [0, 0, 0, 7]⟩))), .res 0 (.res (.ok none)), .inv 1 (.drop 0 "a"), .inv 0 (.new "a"),
   .res 0 (.handle 1), .res 1 .dropped, .inv 0 (.on 1 "a" (.get "k" 0)), .res 0 (.res (.err .keyNotFound))]

/-- The program makes an `MMKV`, puts "k", loses the object, makes another, puts "k" again and loses that too; both finalizers run to their end.  The second store
writes its put first. -/
def kotlinOver : List (PrEv Unit) :=
  [.call 0 (.new "a"), .go 0 (), .go 0 (), .ret 0, .call 0 (.on 0 "a" (.mut (.put "k" ⟨0, [0, 0, 0, 7]⟩))), .go 0 (), .go 0 (), .go 0 (), .ret 0,
   .call 1 (.drop 0 "a"), .go 1 (), .call 0 (.new "a"), .go 0 (), .go 0 (), .ret 0, .call 0 (.on 1 "a" (.mut (.put "k" ⟨0, [0, 0, 0, 8]⟩))), .go 0 (), .go 0 (), .go 0 (), .ret 0] ++
  List.replicate 4 (.io 1 id) ++ [.go 1 ()] ++ List.replicate 5 (.io 0 id) ++ [.go 1 (), .ret 1, .call 1 (.drop 1 "a"), .go 1 (), .go 1 (), .io 1 id, .go 1 (), .ret 1]

/-- What an observer sees of it. -/
def kotlinOverHist : List (HEv POp PRes) :=
  [.inv 0 (.new "a"), .res 0 (.handle 0), .inv 0 (.on 0 "a" (.mut (.put "k" ⟨0, [0, 0, 0, 7]⟩))), .res 0 (.res (.ok none)), .inv 1 (.drop 0 "a"), .inv 0 (.new "a"),
   .res 0 (.handle 1), .inv 0 (.on 1 "a" (.mut (.put "k" ⟨0, [0, 0, 0, 8]⟩))), .res 0 (.res (.ok none)), .res 1 .dropped, .inv 1 (.drop 1 "a"), .res 1 .dropped]

/-- The program makes two objects of "a", puts "k" through the second and loses it; it makes a third while the finalizer of the second is running, and gets "k". -/
def kotlinKept : List (PrEv Unit) :=
  [.call 0 (.new "a"), .go 0 (), .go 0 (), .ret 0, .call 0 (.new "a"), .go 0 (), .ret 0, .call 0 (.on 1 "a" (.mut (.put "k" ⟨0, [0, 0, 0, 7]⟩))), .go 0 (), .go 0 (), .go 0 (), .ret 0,
   .call 1 (.drop 1 "a"), .go 1 (), .call 0 (.new "a"), .go 0 (), .go 1 (), .ret 0, .ret 1, .call 0 (.on 2 "a" (.get "k" 0)), .go 0 (), .go 0 (), .ret 0]

/-- What an observer sees of it. -/
def kotlinKeptHist : List (HEv POp PRes) :=
  [.inv 0 (.new "a"), .res 0 (.handle 0), .inv 0 (.new "a"), .res 0 (.handle 1), .inv 0 (.on 1 "a" (.mut (.put "k" ⟨0, [0, 0, 0, 7]⟩))), .res 0 (.res (.ok none)),
   .inv 1 (.drop 1 "a"), .inv 0 (.new "a"), .res 0 (.handle 2), .res 1 .dropped, .inv 0 (.on 2 "a" (.get "k" 0)), .res 0 (.res (.ok (some [0, 0, 0, 7])))]


theorem kotlin_fit {h : List (HEv POp PRes)} (hh : ∀ (t k : Nat) (d : String) (m : Mutation), .inv t (.on k d (.mut m)) ∈ h → ∃ v : UInt8, m = .put "k" ⟨0, [0, 0, 0, v]⟩) :
    CallsFit 64 h := by
  intro t k d m hm
  obtain ⟨v, rfl⟩ := hh t k d m hm
  have hl : (kvToBytes ⟨"k", 0, [0, 0, 0, v]⟩).length = (kvToBytes ⟨"k", 0, [0, 0, 0, 0]⟩).length := by
    simp [kvToBytes, lenDelim]
  have h0 : (kvToBytes ⟨"k", 0, [0, 0, 0, 0]⟩).length ≤ 59 := by decide
  simp only [evOf, Ev.Fits, recordSize]; omega

theorem kotlin_thread {es : List (PrEv Unit)} (hb : (es.all fun e => match e with | .call _ (.drop _ _) => true | .call t _ => t == 0 | _ => true) = true) :
    ∀ t op, .call t op ∈ es → (∀ k d, op ≠ .drop k d) → t = 0 := by
  intro t op hm hd
  have := List.all_eq_true.1 hb _ hm
  cases op with
  | new d => simpa using this
  | on k d o => simpa using this
  | drop k d => exact absurd rfl (hd k d)

theorem returned_of {h : List (HEv POp PRes)} {i j t : Nat} {op : POp} {r : PRes} (h1 : h[i]? = some (.inv t op)) (h2 : h[j]? = some (.res t r)) (hlt : i < j)
    (hb : ((h.take j).drop (i + 1)).all (fun e => e.thread != t) = true) : Spec.Returned h i j op r := by
  refine ⟨t, h1, h2, hlt, fun k e hk1 hk2 hk => ?_⟩
  have hm : e ∈ (h.take j).drop (i + 1) := List.mem_of_getElem? (i := k - (i + 1)) (by
    rw [List.getElem?_drop, List.getElem?_take, if_pos (by omega), show i + 1 + (k - (i + 1)) = k by omega]; exact hk)
  simpa using List.all_eq_true.1 hb _ hm

/-- A call that returned before anything else happened. -/
theorem returned_next {h : List (HEv POp PRes)} {i j t : Nat} {op : POp} {r r' : PRes} (hr : Spec.Returned h i j op r) (h0 : h[i]? = some (.inv t op))
    (h1 : h[i + 1]? = some (.res t r')) : r = r' := by
  obtain ⟨u, g1, g2, g3, g4⟩ := hr
  rw [h0] at g1
  injection g1 with g1; injection g1 with g1 _; subst g1
  rcases Nat.lt_or_ge (i + 1) j with hlt | hge
  · exact absurd rfl (g4 (i + 1) _ (by omega) hlt h1)
  · have : j = i + 1 := by omega
    subst this
    rw [h1] at g2
    injection g2 with g2; injection g2 with _ g2
    exact g2.symm

theorem kotlin_spell {h : List (HEv POp PRes)} (hh : ∀ t d, .inv t (.new d) ∈ h → d = "a") : OneSpelling twoDirs.fileOf h := by
  intro t u d e h1 h2 _
  rw [hh t d h1, hh u e h2]

/-- **C90** fails: a Kotlin program with one thread, all of whose calls return as they should, does not read what it has put. -/
theorem C90_refuted : ∃ (es : List (PrEv Unit)) (s : Proc Unit) (h : List (HEv POp PRes)),
    Kotlin.run twoDirs 1 { w := start (fun _ => none) [] } es = some (s, h) ∧ OneAtATime h ∧ CallsFit 64 h ∧ (∀ o ord, .io o ord ∈ es → ∀ l, (ord l).Perm l) ∧
      OneSpelling twoDirs.fileOf h ∧ (∀ i j k d m r, Spec.Returned h i j (.on k d (.mut m)) r → r = .res (.ok none)) ∧
      ¬ReadsOwnWrites twoDirs.fileOf (fun _ => Store.empty) h := by
  have hc : (match Kotlin.run twoDirs 1 { w := start (fun _ => none) [] } kotlinRace with
      | some (_, h) => decide (h = kotlinRaceHist)
      | none => false) = true := by decide +kernel
  split at hc
  · rename_i s h hr
    simp only [decide_eq_true_eq] at hc; subst hc
    refine ⟨kotlinRace, s, _, hr, oneAtATime_of_thread (kotlin_thread (by decide +kernel)) (Kotlin.run_proc hr), kotlin_fit ?_, ?_, kotlin_spell ?_, ?_, ?_⟩
    · intro t k d m hm
      simp [kotlinRaceHist] at hm
      exact ⟨7, hm.2.2.2⟩
    · intro o ord hm
      simp [kotlinRace] at hm
      rw [hm.2]
      exact fun l => List.Perm.refl l
    · intro t d hm
      simp [kotlinRaceHist] at hm
      exact hm.2
    · intro i j k d m r hret
      obtain ⟨t, h1, _⟩ := id hret
      have hlt : i < 10 := lt_of_getElem? h1
      have hi : i = 0 ∨ i = 1 ∨ i = 2 ∨ i = 3 ∨ i = 4 ∨ i = 5 ∨ i = 6 ∨ i = 7 ∨ i = 8 ∨ i = 9 := by omega
      rcases hi with rfl | rfl | rfl | rfl | rfl | rfl | rfl | rfl | rfl | rfl
      all_goals first
        | (simp [kotlinRaceHist] at h1; done)
        | (have e : t = 0 := by
             simp [kotlinRaceHist] at h1; exact h1.1.symm
           subst e
           exact returned_next hret h1 rfl)
    · intro hh
      have := hh 8 9 1 "a" "k" 0 _ ⟨0, rfl, rfl, by decide, fun k e h1 h2 => by omega⟩
      revert this
      decide +kernel
  · cases hc


/-- **C90**, what the files hold, fails too: a Kotlin program with one thread puts 7 and then 8 under "k", both puts return Ok, both objects have been finalized, and the
next process finds 7. -/
theorem C90_refuted_saved : ∃ (es : List (PrEv Unit)) (s : Proc Unit) (h : List (HEv POp PRes)) (x : Inst Unit),
    Kotlin.run twoDirs 1 { w := start (fun _ => none) [] } es = some (s, h) ∧ OneAtATime h ∧ CallsFit 64 h ∧ (∀ o ord, .io o ord ∈ es → ∀ l, (ord l).Perm l) ∧
      OneSpelling twoDirs.fileOf h ∧ (∀ i j k d m r, Spec.Returned h i j (.on k d (.mut m)) r → r = .res (.ok none)) ∧
      (∀ (i t k : Nat) (d : String) (m : Mutation), h[i]? = some (.inv t (.on k d (.mut m))) → ∃ j r, Spec.Returned h i j (.on k d (.mut m)) r) ∧
      AllFinalized twoDirs.fileOf h 0 ∧ h.filterMap (madeOn twoDirs.fileOf 0) = [.put "k" ⟨0, [0, 0, 0, 7]⟩, .put "k" ⟨0, [0, 0, 0, 8]⟩] ∧
      Inst.openAt plain () 64 ((s.w.fileAt 0).getD []) = some x ∧ x.getAs "k" 0 (fun b => .ok b) = .ok [0, 0, 0, 7] := by
  have hc : (match Kotlin.run twoDirs 1 { w := start (fun _ => none) [] } kotlinOver with
      | some (s, h) => match Inst.openAt plain () 64 ((s.w.fileAt 0).getD []) with
        | some x => decide (h = kotlinOverHist ∧ x.getAs "k" 0 (fun b => .ok b) = .ok [0, 0, 0, 7])
        | none => false
      | none => false) = true := by decide +kernel
  split at hc
  · rename_i s h hr
    split at hc
    · rename_i x hx
      simp only [decide_eq_true_eq] at hc
      obtain ⟨rfl, hget⟩ := hc
      have hcase : ∀ {i : Nat} {e : HEv POp PRes}, kotlinOverHist[i]? = some e → i = 0 ∨ i = 1 ∨ i = 2 ∨ i = 3 ∨ i = 4 ∨ i = 5 ∨ i = 6 ∨ i = 7 ∨ i = 8 ∨ i = 9 ∨ i = 10 ∨ i = 11 := by
        intro i e h
        have hlt : i < 12 := lt_of_getElem? h
        omega
      refine ⟨kotlinOver, s, _, x, hr, oneAtATime_of_thread (kotlin_thread (by decide +kernel)) (Kotlin.run_proc hr), kotlin_fit ?_, ?_, kotlin_spell ?_, ?_, ?_, ⟨?_, ?_⟩, by decide +kernel, hx, hget⟩
      · intro t k d m hm
        simp [kotlinOverHist] at hm
        rcases hm with hm | hm
        · exact ⟨7, hm.2.2.2⟩
        · exact ⟨8, hm.2.2.2⟩
      · intro o ord hm
        have hall : ∀ e ∈ kotlinOver, (match e with | .io _ _ => true | _ => false) = true → e = .io 0 id ∨ e = .io 1 id := by
          intro e he hb
          simp only [kotlinOver, List.mem_append, List.mem_cons, List.mem_replicate, List.not_mem_nil, or_false] at he
          rcases he with (((he | he) | he) | he) | he
          · rcases he with rfl | rfl | rfl | rfl | rfl | rfl | rfl | rfl | rfl | rfl | rfl | rfl | rfl | rfl | rfl | rfl | rfl | rfl | rfl | rfl <;> cases hb
          · exact .inr he.2
          · subst he; cases hb
          · exact .inl he.2
          · rcases he with rfl | rfl | rfl | rfl | rfl | rfl | rfl | rfl
            all_goals first | exact .inr rfl | cases hb
        rcases hall _ hm rfl with e | e <;> injection e with _ e <;> subst e <;> exact fun l => List.Perm.refl l
      · intro t d hm
        simp [kotlinOverHist] at hm
        exact hm.2
      · intro i j k d m r hret
        obtain ⟨t, h1, _⟩ := id hret
        rcases hcase h1 with rfl | rfl | rfl | rfl | rfl | rfl | rfl | rfl | rfl | rfl | rfl | rfl
        all_goals first
          | (simp [kotlinOverHist] at h1; done)
          | (have e : t = 0 := by
               simp [kotlinOverHist] at h1; exact h1.1.symm
             subst e
             exact returned_next hret h1 rfl)
      · intro i t k d m h1
        rcases hcase h1 with rfl | rfl | rfl | rfl | rfl | rfl | rfl | rfl | rfl | rfl | rfl | rfl
        all_goals first
          | (simp [kotlinOverHist] at h1; done)
          | (have e : t = 0 := by
               simp [kotlinOverHist] at h1; exact h1.1.symm
             subst e
             exact ⟨_, _, 0, h1, rfl, Nat.lt_succ_self _, by intro k e' h1 h2; omega⟩)
      · intro i t d h1 _
        rcases hcase h1 with rfl | rfl | rfl | rfl | rfl | rfl | rfl | rfl | rfl | rfl | rfl | rfl
        all_goals first
          | (simp [kotlinOverHist] at h1; done)
          | skip
        · simp [kotlinOverHist] at h1
          obtain ⟨rfl, rfl⟩ := h1
          refine ⟨1, .handle 0, returned_of (t := 0) rfl rfl (by decide) (by decide), fun k hk => ?_⟩
          injection hk with hk; subst hk
          exact ⟨4, 9, .dropped, returned_of (t := 1) rfl rfl (by decide) (by decide)⟩
        · simp [kotlinOverHist] at h1
          obtain ⟨rfl, rfl⟩ := h1
          refine ⟨6, .handle 1, returned_of (t := 0) rfl rfl (by decide) (by decide), fun k hk => ?_⟩
          injection hk with hk; subst hk
          exact ⟨10, 11, .dropped, returned_of (t := 1) rfl rfl (by decide) (by decide)⟩
      · intro i t k d h1 _
        rcases hcase h1 with rfl | rfl | rfl | rfl | rfl | rfl | rfl | rfl | rfl | rfl | rfl | rfl
        all_goals first
          | (simp [kotlinOverHist] at h1; done)
          | skip
        · simp [kotlinOverHist] at h1
          obtain ⟨rfl, rfl, rfl⟩ := h1
          exact ⟨9, .dropped, returned_of (t := 1) rfl rfl (by decide) (by decide)⟩
        · simp [kotlinOverHist] at h1
          obtain ⟨rfl, rfl, rfl⟩ := h1
          exact ⟨11, .dropped, returned_of (t := 1) rfl rfl (by decide) (by decide)⟩
    · cases hc
  · cases hc

/-! ### The hypotheses can be met -/

/-- The hypotheses of C90 are met by `kotlinKept`. -/
example : Plain twoDirs 64 ∧ GoodNames (fun _ => none) [] ∧ (∀ f, FileMap 64 0 (((start (fun _ => none) [] : World Unit).fileAt f).getD []) Store.empty) ∧
    (∃ s, Kotlin.run twoDirs 1 { w := start (fun _ => none) [] } kotlinKept = some (s, kotlinKeptHist)) ∧ OneAtATime kotlinKeptHist ∧ CallsFit 64 kotlinKeptHist ∧
    (∀ o ord, .io o ord ∈ kotlinKept → ∀ l, (ord l).Perm l) ∧ Apart kotlinKeptHist ∧ OneSpelling twoDirs.fileOf kotlinKeptHist ∧
    64 * (0 + kotlinKept.length) + 8 < 2 ^ 64 := by
  have hc : (match Kotlin.run twoDirs 1 { w := start (fun _ => none) [] } kotlinKept with
      | some (_, h) => decide (h = kotlinKeptHist)
      | none => false) = true := by decide +kernel
  split at hc
  · rename_i s h hr
    simp only [decide_eq_true_eq] at hc; subst hc
    refine ⟨⟨by decide, by decide, rfl, rfl, rfl⟩, .none, fun _ => fileMap_empty, ⟨s, hr⟩,
      oneAtATime_of_thread (kotlin_thread (by decide +kernel)) (Kotlin.run_proc hr), kotlin_fit ?_, ?_, apart_of (by decide +kernel), kotlin_spell ?_, by decide⟩
    · intro t k d m hm
      simp [kotlinKeptHist] at hm
      exact ⟨7, hm.2.2.2⟩
    · intro o ord hm
      simp [kotlinKept] at hm
    · intro t d hm
      simp [kotlinKeptHist] at hm
      exact hm.2
  · cases hc

/-- The same steps with encryption; step `n` of a call that makes a nonce gets `rnd n` from `OsRng`. -/
def kotlinKeptEnc : List (PrEv Bytes) :=
  [.call 0 (.new "a"), .go 0 (rnd 1), .go 0 (rnd 2), .ret 0, .call 0 (.new "a"), .go 0 (rnd 3), .ret 0, .call 0 (.on 1 "a" (.mut (.put "k" ⟨0, [0, 0, 0, 7]⟩))), .go 0 (rnd 4),
   .go 0 (rnd 5), .go 0 (rnd 6), .ret 0, .call 1 (.drop 1 "a"), .go 1 (rnd 7), .call 0 (.new "a"), .go 0 (rnd 8), .go 1 (rnd 9), .ret 0, .ret 1, .call 0 (.on 2 "a" (.get "k" 0)),
   .go 0 (rnd 10), .go 0 (rnd 11), .ret 0]

/-- The hypotheses of C90 with encryption are met by it. -/
example : (∀ _f : Nat, (decodeKey testKey).isSome = true) ∧ GoodNames (fun _ => none) [] ∧
    (∀ f, EncFileMap toy 80 0 testKey (EncThreads.dir ⟨{ w := start (fun _ => none) [] }, fun _ => none⟩ f) Store.empty) ∧
    (∃ s, Kotlin.runEnc (encProcess toy 80 twoDirs.fileOf twoDirs.dirOk) (fun _ => testKey) 1 ⟨{ w := start (fun _ => none) [] }, fun _ => none⟩ kotlinKeptEnc =
      some (s, kotlinKeptHist)) ∧
    (∀ t rand, .go t rand ∈ kotlinKeptEnc → rand.length = 11) ∧ EncCallsFit 80 kotlinKeptHist ∧ (∀ o ord, .io o ord ∈ kotlinKeptEnc → ∀ l, (ord l).Perm l) ∧
    80 * (0 + kotlinKeptEnc.length) + 8 < 2 ^ 64 ∧ 0 + kotlinKeptEnc.length < 2 ^ 32 - 1 := by
  have hk : (decodeKey testKey).isSome = true := by rw [decode_testKey]; rfl
  refine ⟨fun _ => hk, .none, fun _ => encFileMap_empty (by decide) hk, ?_, ?_, ?_, ?_, by decide, by decide⟩
  · have hc : (match Kotlin.runEnc (encProcess toy 80 twoDirs.fileOf twoDirs.dirOk) (fun _ => testKey) 1 ⟨{ w := start (fun _ => none) [] }, fun _ => none⟩ kotlinKeptEnc with
        | some (_, h) => decide (h = kotlinKeptHist)
        | none => false) = true := by decide +kernel
    split at hc
    · rename_i s h hr
      simp only [decide_eq_true_eq] at hc; subst hc
      exact ⟨s, hr⟩
    · cases hc
  · intro t rand hm
    have hall : (kotlinKeptEnc.all fun e => match e with | .go _ rand => rand.length == 11 | _ => true) = true := by decide +kernel
    simpa using List.all_eq_true.1 hall _ hm
  · intro t k d m hm
    simp [kotlinKeptHist] at hm
    obtain ⟨_, _, _, rfl⟩ := hm
    show encRecordSize "k" 0 [0, 0, 0, 7] ≤ 80; decide +kernel
  · intro o ord hm
    simp [kotlinKeptEnc] at hm

end Mmkv
