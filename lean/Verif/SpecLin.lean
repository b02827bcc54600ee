import Verif.Spec
/-!
# Linearizability

The definition of Herlihy and Wing ("Linearizability: a correctness condition for concurrent objects", 1990): every concurrent
history looks as if the calls had been made one at a time, in an order that agrees with real time.  Nothing here refers to the
model of the code.
-/

namespace Spec
variable {Op Res S : Type}

/-- What an observer of all threads sees: thread `t` makes a call, thread `t` gets its result. -/
inductive HEv (Op Res : Type) where
  | inv (t : Nat) (op : Op)
  | res (t : Nat) (r : Res)
deriving DecidableEq

/-- The thread of an event. -/
def HEv.thread : HEv Op Res → Nat
  | .inv t _ => t
  | .res t _ => t

/-- In the history `h`, the call `op` made at position `i` has returned `r` at position `j`: the next event of the same thread. -/
def Returned (h : List (HEv Op Res)) (i j : Nat) (op : Op) (r : Res) : Prop :=
  ∃ t, h[i]? = some (.inv t op) ∧ h[j]? = some (.res t r) ∧ i < j ∧ ∀ k e, i < k → k < j → h[k]? = some e → e.thread ≠ t

/-- A sequence of calls with their results, made one at a time, is what the sequential object allows. -/
inductive Legal (Step : S → Op → Res → S → Prop) : S → List (Op × Res) → S → Prop
  | nil (σ) : Legal Step σ [] σ
  | cons {σ σ' σ'' op r l} (h : Step σ op r σ') (rest : Legal Step σ' l σ'') : Legal Step σ ((op, r) :: l) σ''

/-- `L` (positions of calls in `h`, with the call and a result) is a linearization of the history `h`: it has every call that
has returned, with the result it returned, possibly some calls that have not returned yet, nothing else and nothing twice; made
one at a time in this order they are legal; and a call that returned before another was made comes before it. -/
structure Linearization (Step : S → Op → Res → S → Prop) (init : S) (h : List (HEv Op Res)) (L : List (Nat × Op × Res)) (last : S) :
    Prop where
  distinct : (L.map (·.1)).Nodup
  invoked : ∀ x ∈ L, ∃ t, h[x.1]? = some (.inv t x.2.1)
  complete : ∀ i j op r, Returned h i j op r → (i, op, r) ∈ L
  legal : Legal Step init (L.map (·.2)) last
  order : ∀ (a b : Nat) (x y : Nat × Op × Res) j op r, L[a]? = some x → L[b]? = some y → Returned h x.1 j op r → j < y.1 → a < b

/-- The history is linearizable. -/
def Linearizable (Step : S → Op → Res → S → Prop) (init : S) (h : List (HEv Op Res)) : Prop :=
  ∃ L last, Linearization Step init h L last

/-- Several sessions, each seen as a history and ended in a clean way or by a crash: *buffered durable linearizability*
(Izraelevitz, Mendes and Scott, "Linearizability of persistent memory objects under a full-system-crash failure model", 2016).
Each session is linearizable, starting with what the one before left; it leaves what a first part of its linearization leads to,
all of it if it ended in a clean way. -/
inductive BufferedDurable (Step : S → Op → Res → S → Prop) : S → List (List (HEv Op Res) × Bool) → S → Prop
  | nil (σ) : BufferedDurable Step σ [] σ
  | cons {σ σ' σ'' last h clean hs L} (kept : Nat) (hl : Linearization Step σ h L last) (hc : clean = true → L.length ≤ kept)
      (hk : Legal Step σ ((L.take kept).map (·.2)) σ') (rest : BufferedDurable Step σ' hs σ'') :
      BufferedDurable Step σ ((h, clean) :: hs) σ''

end Spec
