/-!
# Independent specification

What a user of MMKV has in mind: a plain map from strings to typed byte strings, mutated by
`put`, `delete` and `clear_data`.  Nothing here refers to the model of the code.
-/

namespace Spec

/-- What a key holds: the type it was put at (an `i32` token) and the raw bytes of the value. -/
structure Entry where
  token : BitVec 32
  bytes : List UInt8
deriving DecidableEq, Repr

/-- The state of a store: a plain finite-or-not map from keys to entries. -/
abbrev Store := String → Option Entry

/-- The store with no keys. -/
def Store.empty : Store := fun _ => none

/-- The mutations of the public API. -/
inductive Mutation where
  | put (key : String) (entry : Entry)
  | delete (key : String)
  | clear
deriving DecidableEq, Repr

/-- Effect of one mutation on a plain map. -/
def Store.apply (s : Store) : Mutation → Store
  | .put k e => fun k' => if k' = k then some e else s k'
  | .delete k => fun k' => if k' = k then none else s k'
  | .clear => Store.empty

/-- Effect of a sequence of mutations, first one first. -/
def Store.run (s : Store) (ms : List Mutation) : Store := ms.foldl Store.apply s

/-- What may be left of a store after several sessions, each given by its mutations and whether it was closed cleanly:
a clean session keeps all its mutations, any other one keeps some first part of them. -/
inductive Survives : Store → List (List Mutation × Bool) → Store → Prop
  | nil (S : Store) : Survives S [] S
  | cons {S S' : Store} {ms : List Mutation} {clean : Bool} {rest : List (List Mutation × Bool)} (m : Nat)
      (hm : m ≤ ms.length) (hc : clean = true → m = ms.length) (h : Survives (S.run (ms.take m)) rest S') :
      Survives S ((ms, clean) :: rest) S'

end Spec
