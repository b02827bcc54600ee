import Verif.SpecLin
/-!
# Building a linearization along a run
-/

namespace Spec
variable {Op Res S : Type} {Step : S → Op → Res → S → Prop}

/-- The last event of thread `t` in `h` is the call `op` at `pos`. -/
def Pending (h : List (HEv Op Res)) (t pos : Nat) (op : Op) : Prop :=
  h[pos]? = some (.inv t op) ∧ ∀ k e, pos < k → h[k]? = some e → e.thread ≠ t

theorem lt_of_getElem? {α : Type} {l : List α} {i : Nat} {x : α} (h : l[i]? = some x) : i < l.length :=
  (List.getElem?_eq_some_iff.1 h).1

theorem getElem?_snoc {α : Type} {l : List α} {e x : α} {i : Nat} (h : (l ++ [e])[i]? = some x) :
    (i < l.length ∧ l[i]? = some x) ∨ (i = l.length ∧ x = e) := by
  have hl := lt_of_getElem? h
  simp only [List.length_append, List.length_cons, List.length_nil] at hl
  by_cases hi : i < l.length
  · left
    rw [List.getElem?_append_left hi] at h
    exact ⟨hi, h⟩
  · right
    have : i = l.length := by omega
    subst this
    simp at h
    exact ⟨rfl, h.symm⟩

theorem returned_snoc {h : List (HEv Op Res)} {e : HEv Op Res} {i j : Nat} {op : Op} {r : Res}
    (hr : Returned (h ++ [e]) i j op r) :
    Returned h i j op r ∨ (j = h.length ∧ ∃ t, e = .res t r ∧ Pending h t i op) := by
  obtain ⟨t, h1, h2, h3, h4⟩ := hr
  have hmid : ∀ k e', i < k → k < j → h[k]? = some e' → e'.thread ≠ t := by
    intro k e' hk hk' he
    exact h4 k e' hk hk' (by rw [List.getElem?_append_left (lt_of_getElem? he)]; exact he)
  rcases getElem?_snoc h2 with ⟨hj, h2⟩ | ⟨hj, rfl⟩
  · left
    rw [List.getElem?_append_left (by omega)] at h1
    exact ⟨t, h1, h2, h3, hmid⟩
  · right
    subst hj
    rw [List.getElem?_append_left h3] at h1
    exact ⟨rfl, t, rfl, h1, fun k e' hk he => hmid k e' hk (lt_of_getElem? he) he⟩

theorem returned_mono {h : List (HEv Op Res)} {e : HEv Op Res} {i j : Nat} {op : Op} {r : Res} (hr : Returned h i j op r) :
    Returned (h ++ [e]) i j op r := by
  obtain ⟨t, h1, h2, h3, h4⟩ := hr
  have hj := lt_of_getElem? h2
  refine ⟨t, ?_, ?_, h3, ?_⟩
  · rw [List.getElem?_append_left (by omega)]; exact h1
  · rw [List.getElem?_append_left hj]; exact h2
  · intro k e' hk hk' he
    rw [List.getElem?_append_left (by omega)] at he
    exact h4 k e' hk hk' he

theorem pending_not_returned {h : List (HEv Op Res)} {t pos : Nat} {op : Op} (hp : Pending h t pos op) {j : Nat} {op' : Op} {r : Res} :
    ¬ Returned h pos j op' r := by
  rintro ⟨t', h1, h2, h3, _⟩
  rw [hp.1] at h1
  injection h1 with h1; injection h1 with h1 h1'
  subst h1
  exact hp.2 j _ h3 h2 rfl

theorem pending_unique {h : List (HEv Op Res)} {t p q : Nat} {op op' : Op} (h1 : Pending h t p op) (h2 : Pending h t q op') :
    p = q ∧ op = op' := by
  have : p = q := by
    rcases Nat.lt_trichotomy p q with hlt | heq | hlt
    · exact absurd rfl (h1.2 q _ hlt h2.1)
    · exact heq
    · exact absurd rfl (h2.2 p _ hlt h1.1)
  subst this
  have := h1.1.symm.trans h2.1
  injection this with this; injection this with _ this
  exact ⟨rfl, this⟩

theorem pending_snoc {h : List (HEv Op Res)} {t pos : Nat} {op : Op} (hp : Pending h t pos op) {e : HEv Op Res} (he : e.thread ≠ t) :
    Pending (h ++ [e]) t pos op := by
  refine ⟨by rw [List.getElem?_append_left (lt_of_getElem? hp.1)]; exact hp.1, ?_⟩
  intro k e' hk hk'
  rcases getElem?_snoc hk' with ⟨_, hk'⟩ | ⟨_, rfl⟩
  · exact hp.2 k e' hk hk'
  · exact he

theorem pending_new (h : List (HEv Op Res)) (t : Nat) (op : Op) : Pending (h ++ [.inv t op]) t h.length op := by
  refine ⟨by simp, ?_⟩
  intro k e hk he
  have := lt_of_getElem? he
  simp at this
  omega

theorem Legal.snoc {σ σ' σ'' : S} {l : List (Op × Res)} {op : Op} {r : Res} (h : Legal Step σ l σ') (hs : Step σ' op r σ'') :
    Legal Step σ (l ++ [(op, r)]) σ'' := by
  induction h with
  | nil => exact .cons hs (.nil _)
  | cons h _ ih => exact .cons h (ih hs)

namespace Linearization
variable {init last : S} {h : List (HEv Op Res)} {L : List (Nat × Op × Res)}

theorem nil (Step : S → Op → Res → S → Prop) (init : S) : Linearization Step init ([] : List (HEv Op Res)) [] init :=
  ⟨by simp, by simp, fun i j op r hr => by obtain ⟨t, h1, _⟩ := hr; simp at h1, .nil _, fun a b x y j op r hx => by simp at hx⟩

theorem lt_length (hl : Linearization Step init h L last) {x : Nat × Op × Res} (hx : x ∈ L) : x.1 < h.length := by
  obtain ⟨t, ht⟩ := hl.invoked x hx
  exact lt_of_getElem? ht

/-- A thread makes a call. -/
theorem inv (hl : Linearization Step init h L last) (t : Nat) (op : Op) : Linearization Step init (h ++ [.inv t op]) L last := by
  have hret : ∀ i j op' r, Returned (h ++ [.inv t op]) i j op' r → Returned h i j op' r := by
    intro i j op' r hr
    rcases returned_snoc hr with hr | ⟨_, t', he, _⟩
    · exact hr
    · cases he
  refine ⟨hl.distinct, ?_, fun i j op' r hr => hl.complete _ _ _ _ (hret _ _ _ _ hr), hl.legal,
    fun a b x y j op' r hx hy hr hlt => hl.order a b x y j op' r hx hy (hret _ _ _ _ hr) hlt⟩
  intro x hx
  obtain ⟨t', ht⟩ := hl.invoked x hx
  exact ⟨t', by rw [List.getElem?_append_left (lt_of_getElem? ht)]; exact ht⟩

/-- A call that is in the linearization returns its result. -/
theorem res (hl : Linearization Step init h L last) {t pos : Nat} {op : Op} {r : Res} (hp : Pending h t pos op)
    (hm : (pos, op, r) ∈ L) : Linearization Step init (h ++ [.res t r]) L last := by
  refine ⟨hl.distinct, ?_, ?_, hl.legal, ?_⟩
  · intro x hx
    obtain ⟨t', ht⟩ := hl.invoked x hx
    exact ⟨t', by rw [List.getElem?_append_left (lt_of_getElem? ht)]; exact ht⟩
  · intro i j op' r' hr
    rcases returned_snoc hr with hr | ⟨_, t', he, hp'⟩
    · exact hl.complete _ _ _ _ hr
    · injection he with h1 h2
      subst h1 h2
      obtain ⟨rfl, rfl⟩ := pending_unique hp hp'
      exact hm
  · intro a b x y j op' r' hx hy hr hlt
    rcases returned_snoc hr with hr | ⟨rfl, _⟩
    · exact hl.order a b x y j op' r' hx hy hr hlt
    · have := hl.lt_length (List.mem_of_getElem? hy)
      omega

/-- A call takes effect. -/
theorem point (hl : Linearization Step init h L last) {t pos : Nat} {op : Op} {r : Res} (hp : Pending h t pos op)
    (hm : pos ∉ L.map (·.1)) {last' : S} (hs : Step last op r last') : Linearization Step init h (L ++ [(pos, op, r)]) last' := by
  refine ⟨?_, ?_, ?_, ?_, ?_⟩
  · rw [List.map_append, List.nodup_append]
    refine ⟨hl.distinct, by simp, ?_⟩
    intro a ha b hb
    simp only [List.map_cons, List.map_nil, List.mem_singleton] at hb
    subst hb
    rintro rfl
    exact hm ha
  · intro x hx
    rcases List.mem_append.1 hx with hx | hx
    · exact hl.invoked x hx
    · simp only [List.mem_singleton] at hx
      subst hx
      exact ⟨t, hp.1⟩
  · intro i j op' r' hr
    exact List.mem_append_left _ (hl.complete _ _ _ _ hr)
  · rw [List.map_append]
    exact hl.legal.snoc hs
  · intro a b x y j op' r' hx hy hr hlt
    rcases getElem?_snoc hx with ⟨ha, hx⟩ | ⟨ha, rfl⟩
    · rcases getElem?_snoc hy with ⟨hb, hy⟩ | ⟨hb, rfl⟩
      · exact hl.order a b x y j op' r' hx hy hr hlt
      · omega
    · exact absurd hr (pending_not_returned hp)

end Linearization
end Spec
