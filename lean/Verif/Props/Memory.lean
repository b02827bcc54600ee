import Verif.Props.Common
/-!
# Reads, writes and types: C01-C05, C32, C33, C44 (in memory)
-/

namespace Mmkv
open Spec Inst
variable {ι : Type}

/-! ### A concrete history used to show that hypotheses can be met -/

/-- The identity order (a permutation). -/
def idOrder : Order := fun l => l

/-- put a = 1i32, put b = "x", put a = true, delete b, with the background thread interleaved. -/
def demoEvs : List (Ev Unit) :=
  [.put "a" 0 [0, 0, 0, 1], .api (), .api (), .io idOrder, .put "b" 1 [120], .io idOrder, .api (), .io idOrder, .api (),
   .io idOrder, .put "a" 2 [1], .api (), .api (), .io idOrder, .delete "b", .api (), .api ()]

/-- A history from a fresh directory with 64-byte pages. -/
def fresh64 (es : List (Ev Unit)) : Option (Inst Unit × List (Out Unit)) :=
  match openAt plain () 64 [] with
  | none => none
  | some s => run plain s es

/-- Checking a computable predicate on the end of a run. -/
def passes (r : Option (Inst ι × List (Out Unit))) (p : Inst ι → List (Out Unit) → Bool) : Bool :=
  match r with
  | none => false
  | some (s, rs) => p s rs

theorem exists_of_passes {r : Option (Inst ι × List (Out Unit))} {p : Inst ι → List (Out Unit) → Bool}
    (h : passes r p = true) : ∃ s rs, r = some (s, rs) ∧ p s rs = true := by
  cases r with
  | none => simp [passes] at h
  | some x => exact ⟨x.1, x.2, rfl, h⟩

theorem exists_of_fresh64 {es : List (Ev Unit)} {p : Inst Unit → List (Out Unit) → Bool}
    (h : passes (fresh64 es) p = true) :
    ∃ s0 s rs, openAt plain () 64 [] = some s0 ∧ run plain s0 es = some (s, rs) ∧ p s rs = true := by
  obtain ⟨s, rs, h1, h2⟩ := exists_of_passes h
  unfold fresh64 at h1
  split at h1
  · cases h1
  · rename_i s0 h0; exact ⟨s0, s, rs, h0, h1, h2⟩

/-! ### C01 -/

/-- **C01.** Open any directory whose file opens; let `S0` be the plain map that all possible gets agree with at that
moment.  After any history of calls and background steps in which every call so far returned `Ok`, all possible gets
agree with the plain map obtained from `S0` by the same calls in the order they took the lock. -/
theorem C01_latest_write_wins {codecs : ι → Codec} {i : ι} {page : Nat} {file : Bytes} {u : Nat} {q : Option Nat}
    {s0 s : Inst ι} {S0 : Store} {es : List (Ev ι)} {rs : List (Out Unit)}
    (hopen : openAt codecs i page file u q = some s0) (h0 : s0.Shows S0)
    (hrun : run codecs s0 es = some (s, rs)) (hok : ∀ r ∈ rs, r = .ok ()) (hidle : s.phase = .idle) :
    s.Shows (S0.run (calls es)) := by
  have hv := (shows_open hopen).1 h0
  obtain ⟨hb, hview⟩ := book_run es (book_open hopen) hrun hok
  rw [shows_iff hb.poisoned (by rw [hb.valid, hidle]; rfl) (live_run es (live_open hopen) hrun), hview, hv]

/-- C01 for a directory used for the first time: it starts as the empty map. -/
theorem C01_fresh {codecs : ι → Codec} {i : ι} {page : Nat} (hp : 8 ≤ page) (es : List (Ev ι)) :
    ∃ s0, openAt codecs i page [] = some s0 ∧ s0.Shows Store.empty ∧
      ∀ s rs, run codecs s0 es = some (s, rs) → (∀ r ∈ rs, r = .ok ()) → s.phase = .idle →
        s.Shows (Store.empty.run (calls es)) := by
  have hopen : openAt codecs i page [] = some { idx := i, kv := [], lp := Looper.new {
      ws := { file := zeros page, mmLen := page, page := page, position := 0, needTrim := false } } } := by
    unfold openAt; rw [openStore_nil _ _ hp]
  have h0 := (shows_open hopen).2 view_nil
  exact ⟨_, hopen, h0, fun s rs hr hok hi => C01_latest_write_wins hopen h0 hr hok hi⟩

/-- The hypotheses of C01 are met by the demo history, and the answer is the expected one. -/
example : ∃ s0 s rs, openAt plain () 64 [] = some s0 ∧ run plain s0 demoEvs = some (s, rs) ∧
    (∀ r ∈ rs, r = .ok ()) ∧ s.phase = .idle ∧ rs.length = 4 ∧ s.get "a" .bool = .ok true ∧
    s.get "b" .str = .err .keyNotFound := by
  have h : passes (fresh64 demoEvs) (fun s rs => decide ((∀ r ∈ rs, r = .ok ()) ∧ s.phase = .idle ∧ rs.length = 4) &&
    (s.getAs "a" 2 boolFromBytes == .ok true) && (s.getAs "b" 1 strFromBytes == .err .keyNotFound)) = true := by
    decide +kernel
  obtain ⟨s0, s, rs, h0, h1, h2⟩ := exists_of_fresh64 h
  simp only [Bool.and_eq_true, decide_eq_true_eq, beq_iff_eq] at h2
  exact ⟨s0, s, rs, h0, h1, h2.1.1.1, h2.1.1.2.1, h2.1.1.2.2, h2.1.2, h2.2⟩

example : calls demoEvs = [.put "a" ⟨0, [0, 0, 0, 1]⟩, .put "b" ⟨1, [120]⟩, .put "a" ⟨2, [1]⟩, .delete "b"] := rfl

/-! ### C02, C03 -/

/-- **C02**, the value level: serializing and reading back is the identity, for all values of all types. -/
theorem C02_bytes_roundtrip (t : Ty) (v : t.Val) : fromBytes t (toBytes t v) = .ok v := fromBytes_toBytes t v

theorem lookup_put_same {α : Type} (S : Store) (k : String) (e : Entry) (token : BitVec 32) (f : Bytes → Out α) :
    Store.lookup (S.run [.put k e]) k token f = if token = e.token then f e.bytes else .err .typeMissMatch := by
  simp [Store.lookup, Store.run, Store.apply]

/-- Calls that leave key `k` alone. -/
def Leaves (k : String) : Mutation → Prop
  | .put k' _ => k' ≠ k
  | .delete k' => k' ≠ k
  | .clear => False

theorem run_leaves (S : Store) (k : String) (ms : List Mutation) (h : ∀ m ∈ ms, Leaves k m) : (S.run ms) k = S k := by
  induction ms generalizing S with
  | nil => rfl
  | cons m ms ih =>
    have h1 := h m List.mem_cons_self
    show ((S.apply m).run ms) k = S k
    rw [ih _ (fun m' hm' => h m' (List.mem_cons_of_mem _ hm'))]
    cases m with
    | put k' e => simp only [Leaves] at h1; simp [Store.apply, Ne.symm h1]
    | delete k' => simp only [Leaves] at h1; simp [Store.apply, Ne.symm h1]
    | clear => exact absurd h1 (by simp [Leaves])

theorem lookup_leaves {α : Type} (S : Store) (k : String) (ms : List Mutation) (h : ∀ m ∈ ms, Leaves k m)
    (token : BitVec 32) (f : Bytes → Out α) : Store.lookup (S.run ms) k token f = Store.lookup S k token f := by
  unfold Store.lookup
  rw [run_leaves S k ms h]

/-- A value put at a token and not touched since reads back at that token, and only at that token. -/
theorem get_after_put {α : Type} {codecs : ι → Codec} {i : ι} {page : Nat} {file : Bytes} {u : Nat} {q : Option Nat}
    {s0 s : Inst ι} {es es' : List (Ev ι)} {rs : List (Out Unit)} {k : String} {token : BitVec 32} {bytes : Bytes}
    (hopen : openAt codecs i page file u q = some s0)
    (hrun : run codecs s0 (es ++ [.put k token bytes] ++ es') = some (s, rs)) (hok : ∀ r ∈ rs, r = .ok ())
    (hidle : s.phase = .idle) (hk : ∀ m ∈ calls es', Leaves k m) (token' : BitVec 32) (f : Bytes → Out α) :
    s.getAs k token' f = if token' = token then f bytes else .err .typeMissMatch := by
  have h := C01_latest_write_wins hopen ((shows_open hopen).2 rfl) hrun hok hidle
  have := h α k token' f
  rw [this, calls_append, run_append, lookup_leaves _ _ _ hk, calls_append, run_append]
  exact lookup_put_same _ k ⟨token, bytes⟩ token' f

/-- **C02.** A put of `v` at any built-in type, followed by anything that does not touch the key, reads back `v`. -/
theorem C02_put_get {codecs : ι → Codec} {i : ι} {page : Nat} {file : Bytes} {u : Nat} {q : Option Nat}
    {s0 s : Inst ι} {es es' : List (Ev ι)} {rs : List (Out Unit)} {k : String} (t : Ty) (v : t.Val)
    (hopen : openAt codecs i page file u q = some s0)
    (hrun : run codecs s0 (es ++ [.put k t.token (toBytes t v)] ++ es') = some (s, rs)) (hok : ∀ r ∈ rs, r = .ok ())
    (hidle : s.phase = .idle) (hk : ∀ m ∈ calls es', Leaves k m) : s.get k t = .ok v := by
  unfold Inst.get
  rw [get_after_put hopen hrun hok hidle hk, if_pos rfl]
  exact fromBytes_toBytes t v

/-- **C03.** Reading it at any other built-in type is `TypeMissMatch`, and it stays readable at its own type. -/
theorem C03_wrong_type {codecs : ι → Codec} {i : ι} {page : Nat} {file : Bytes} {u : Nat} {q : Option Nat}
    {s0 s : Inst ι} {es es' : List (Ev ι)} {rs : List (Out Unit)} {k : String} (t t' : Ty) (v : t.Val) (ht : t' ≠ t)
    (hopen : openAt codecs i page file u q = some s0)
    (hrun : run codecs s0 (es ++ [.put k t.token (toBytes t v)] ++ es') = some (s, rs)) (hok : ∀ r ∈ rs, r = .ok ())
    (hidle : s.phase = .idle) (hk : ∀ m ∈ calls es', Leaves k m) :
    s.get k t' = .err .typeMissMatch ∧ s.get k t = .ok v := by
  refine ⟨?_, C02_put_get t v hopen hrun hok hidle hk⟩
  unfold Inst.get
  rw [get_after_put hopen hrun hok hidle hk, if_neg (fun h => ht (token_injective h))]

/-- The token table itself: the eleven built-in types have eleven different tokens, none of them the tombstone's. -/
theorem C03_tokens (t t' : Ty) : (t.token = t'.token ↔ t = t') ∧ t.token ≠ deletedToken :=
  ⟨⟨token_injective, fun h => by rw [h]⟩, token_ne_deleted t⟩

/-- Non-vacuity of C02/C03: a concrete run of that form, through the background thread, with a NaN payload. -/
example : ∃ s0 s rs, openAt plain () 64 [] = some s0 ∧
    run plain s0 ([] ++ [.put "k" Ty.f32.token (toBytes .f32 (0x7fc00001#32 : BitVec 32))] ++
      [.api (), .api (), .io idOrder, .io idOrder, .io idOrder]) = some (s, rs) ∧ (∀ r ∈ rs, r = .ok ()) ∧ s.phase = .idle ∧
      s.disk.take 24 = [0, 0, 0, 0, 0, 0, 0, 16, 0, 0, 0, 12, 10, 1, 107, 16, 4, 26, 4, 127, 192, 0, 1, 154] := by
  have h : passes (fresh64 ([] ++ [.put "k" Ty.f32.token (toBytes .f32 (0x7fc00001#32 : BitVec 32))] ++
      [.api (), .api (), .io idOrder, .io idOrder, .io idOrder])) (fun s rs => decide ((∀ r ∈ rs, r = .ok ()) ∧ s.phase = .idle ∧
        s.disk.take 24 = [0, 0, 0, 0, 0, 0, 0, 16, 0, 0, 0, 12, 10, 1, 107, 16, 4, 26, 4, 127, 192, 0, 1, 154])) = true := by
    decide +kernel
  obtain ⟨s0, s, rs, h0, h1, h2⟩ := exists_of_fresh64 h
  exact ⟨s0, s, rs, h0, h1, by simpa using h2⟩

/-! ### C04, C05 -/

theorem run_noPut {k : String} : ∀ (ms : List Mutation) (S : Store), S k = none → (∀ e, Mutation.put k e ∉ ms) → S.run ms k = none := by
  intro ms
  induction ms with
  | nil => intro S hS _; exact hS
  | cons m ms ih =>
    intro S hS hm
    refine ih (S.apply m) ?_ (fun e he => hm e (List.mem_cons_of_mem _ he))
    cases m with
    | put k' e =>
      have : k ≠ k' := fun h => hm e (by rw [h]; exact List.mem_cons_self)
      simpa [Store.apply, this] using hS
    | delete k' => by_cases hkk : k = k' <;> simp [Store.apply, hkk]; rw [← hS]
    | clear => rfl

/-- **C04**, this process: after a delete, until the key is put again, every get says `KeyNotFound`. -/
theorem C04_delete_removes {α : Type} {codecs : ι → Codec} {i : ι} {page : Nat} {file : Bytes} {u : Nat} {q : Option Nat}
    {s0 s : Inst ι} {es es' : List (Ev ι)} {rs : List (Out Unit)} {k : String}
    (hopen : openAt codecs i page file u q = some s0)
    (hrun : run codecs s0 (es ++ [.delete k] ++ es') = some (s, rs)) (hok : ∀ r ∈ rs, r = .ok ())
    (hidle : s.phase = .idle) (hk : ∀ e, Mutation.put k e ∉ calls es') (token : BitVec 32) (f : Bytes → Out α) :
    s.getAs k token f = .err .keyNotFound := by
  have h := C01_latest_write_wins hopen ((shows_open hopen).2 rfl) hrun hok hidle
  rw [h α k token f, calls_append, run_append, calls_append, run_append]
  have h1 : ((view s0.kv).run (calls es)).run (calls [(Ev.delete k : Ev ι)]) k = none := by
    simp [calls, Ev.call?, Store.run, Store.apply]
  unfold Store.lookup
  rw [run_noPut _ _ h1 hk]

/-- **C04**, deleting an absent key: the call returns `Ok` at once and nothing at all changes (no record is queued). -/
theorem C04_delete_absent {codecs : ι → Codec} {s : Inst ι} {k : String} (hidle : s.phase = .idle)
    (hp : s.poisoned = false) (hv : s.valid = true)
    (habs : s.getAs k 0 (fun b => Out.ok b) = .err .keyNotFound) (hl : s.Live) :
    step codecs s (.delete k) = some (s, some (.ok ())) := by
  have : s.kv.get k = none := by
    cases hk : s.kv.get k with
    | none => rfl
    | some b =>
      have hb := hl k b hk
      simp only [getAs, hp, hv, hk, Buffer.parseAs, Buffer.checkType, hb] at habs
      by_cases h0 : 0#32 = b.type
      · simp [h0] at habs
      · simp [h0] at habs
  simp [step, hidle, hp, hv, this]

/-- Every state reached by successful calls and not in the middle of one meets the hypotheses of the previous theorem. -/
theorem reachable_ready {codecs : ι → Codec} {i : ι} {page : Nat} {file : Bytes} {u : Nat} {q : Option Nat}
    {s0 s : Inst ι} {es : List (Ev ι)} {rs : List (Out Unit)}
    (hopen : openAt codecs i page file u q = some s0)
    (hrun : run codecs s0 es = some (s, rs)) (hok : ∀ r ∈ rs, r = .ok ()) (hidle : s.phase = .idle) :
    s.poisoned = false ∧ s.valid = true ∧ s.Live := by
  obtain ⟨hb, _⟩ := book_run es (book_open hopen) hrun hok
  exact ⟨hb.poisoned, by rw [hb.valid, hidle]; rfl, live_run es (live_open hopen) hrun⟩

/-- **C05**, this process: calls on other keys do not change what a get of `k` returns. -/
theorem C05_other_keys {α : Type} {codecs : ι → Codec} {i : ι} {page : Nat} {file : Bytes} {u : Nat} {q : Option Nat}
    {s0 s1 s2 : Inst ι} {es1 es2 : List (Ev ι)} {rs1 rs2 : List (Out Unit)} {k : String}
    (hopen : openAt codecs i page file u q = some s0)
    (hrun1 : run codecs s0 es1 = some (s1, rs1)) (hok1 : ∀ r ∈ rs1, r = .ok ()) (hidle1 : s1.phase = .idle)
    (hrun2 : run codecs s1 es2 = some (s2, rs2)) (hok2 : ∀ r ∈ rs2, r = .ok ()) (hidle2 : s2.phase = .idle)
    (hk : ∀ m ∈ calls es2, Leaves k m) (token : BitVec 32) (f : Bytes → Out α) :
    s2.getAs k token f = s1.getAs k token f := by
  obtain ⟨hb1, _⟩ := book_run es1 (book_open hopen) hrun1 hok1
  obtain ⟨hb2, hview⟩ := book_run es2 hb1 hrun2 hok2
  have hl1 := live_run es1 (live_open hopen) hrun1
  have hs1 := (shows_iff (S := view s1.kv) hb1.poisoned (by rw [hb1.valid, hidle1]; rfl) hl1).2 rfl
  have hs2 := (shows_iff (S := view s2.kv) hb2.poisoned (by rw [hb2.valid, hidle2]; rfl) (live_run es2 hl1 hrun2)).2 rfl
  rw [hs1 α k token f, hs2 α k token f, hview, lookup_leaves _ _ _ hk]

/-! ### C44 -/

/-- Two mutations of different keys. -/
def Independent (a b : Mutation) : Prop :=
  match a, b with
  | .put k _, .put k' _ | .put k _, .delete k' | .delete k, .put k' _ | .delete k, .delete k' => k ≠ k'
  | _, _ => False

theorem apply_comm (S : Store) (a b : Mutation) (h : Independent a b) : (S.apply a).apply b = (S.apply b).apply a := by
  funext k
  cases a <;> cases b <;> simp only [Independent] at h <;> simp only [Store.apply] <;>
    (split <;> split <;> first | rfl | (rename_i h1 h2; exact absurd (h2.symm.trans h1) h) | (rename_i h1 h2; exact absurd (h1.symm.trans h2) h))

/-- **C44**, swapping: two histories whose calls differ only by swapping two adjacent mutations of different keys are
indistinguishable by any get, whatever the background thread did in either. -/
theorem C44_commute {α : Type} {codecs : ι → Codec} {i : ι} {page : Nat} {file : Bytes} {u : Nat} {q : Option Nat}
    {s0 s1 s2 : Inst ι} {es1 es2 : List (Ev ι)} {rs1 rs2 : List (Out Unit)}
    {pre post : List Mutation} {a b : Mutation} (hab : Independent a b)
    (hc1 : calls es1 = pre ++ [a, b] ++ post) (hc2 : calls es2 = pre ++ [b, a] ++ post)
    (hopen : openAt codecs i page file u q = some s0)
    (hrun1 : run codecs s0 es1 = some (s1, rs1)) (hok1 : ∀ r ∈ rs1, r = .ok ()) (hidle1 : s1.phase = .idle)
    (hrun2 : run codecs s0 es2 = some (s2, rs2)) (hok2 : ∀ r ∈ rs2, r = .ok ()) (hidle2 : s2.phase = .idle)
    (k : String) (token : BitVec 32) (f : Bytes → Out α) : s1.getAs k token f = s2.getAs k token f := by
  have h0 := (shows_open hopen).2 (rfl : view s0.kv = view s0.kv)
  have h1 := C01_latest_write_wins hopen h0 hrun1 hok1 hidle1
  have h2 := C01_latest_write_wins hopen h0 hrun2 hok2 hidle2
  have : ((view s0.kv).run (calls es1)) = ((view s0.kv).run (calls es2)) := by
    rw [hc1, hc2, run_append, run_append, run_append, run_append]
    congr 1
    exact apply_comm _ a b hab
  rw [h1 α k token f, h2 α k token f, this]

theorem apply_idem (S : Store) (m : Mutation) : (S.apply m).apply m = S.apply m := by
  cases m with
  | put k e => funext k'; simp only [Store.apply]; split <;> rfl
  | delete k => funext k'; simp only [Store.apply]; split <;> rfl
  | clear => rfl

/-- **C44**, repeating: doing the same mutation twice is indistinguishable from doing it once. -/
theorem C44_repeat {α : Type} {codecs : ι → Codec} {i : ι} {page : Nat} {file : Bytes} {u : Nat} {q : Option Nat}
    {s0 s1 s2 : Inst ι} {es1 es2 : List (Ev ι)} {rs1 rs2 : List (Out Unit)}
    {pre post : List Mutation} {m : Mutation}
    (hc1 : calls es1 = pre ++ [m, m] ++ post) (hc2 : calls es2 = pre ++ [m] ++ post)
    (hopen : openAt codecs i page file u q = some s0)
    (hrun1 : run codecs s0 es1 = some (s1, rs1)) (hok1 : ∀ r ∈ rs1, r = .ok ()) (hidle1 : s1.phase = .idle)
    (hrun2 : run codecs s0 es2 = some (s2, rs2)) (hok2 : ∀ r ∈ rs2, r = .ok ()) (hidle2 : s2.phase = .idle)
    (k : String) (token : BitVec 32) (f : Bytes → Out α) : s1.getAs k token f = s2.getAs k token f := by
  have h0 := (shows_open hopen).2 (rfl : view s0.kv = view s0.kv)
  have h1 := C01_latest_write_wins hopen h0 hrun1 hok1 hidle1
  have h2 := C01_latest_write_wins hopen h0 hrun2 hok2 hidle2
  have : ((view s0.kv).run (calls es1)) = ((view s0.kv).run (calls es2)) := by
    rw [hc1, hc2, run_append, run_append, run_append, run_append]
    congr 1
    exact apply_idem _ m
  rw [h1 α k token f, h2 α k token f, this]

example : Independent (.put "a" ⟨0, []⟩) (.delete "b") := by simp [Independent]

/-! ### C32 -/

/-- **C32**, acceptance: `TypeToken::new` accepts exactly the `i32` values outside `0..=100` and keeps them. -/
theorem C32_accepts (t : BitVec 32) :
    (typeTokenNew t = .ok t ↔ (t.toInt < 0 ∨ 100 < t.toInt)) ∧
    (typeTokenNew t = .panic ↔ (0 ≤ t.toInt ∧ t.toInt ≤ 100)) := by
  unfold typeTokenNew reserved
  by_cases h : 0 ≤ t.toInt ∧ t.toInt ≤ 100
  · simp [h]
  · simp [h]; omega

/-- **C32**, separation: an accepted token is the token of no built-in type and not the tombstone's. -/
theorem C32_separate (t : BitVec 32) (h : typeTokenNew t = .ok t) (ty : Ty) : t ≠ ty.token ∧ t ≠ deletedToken := by
  have h' := (C32_accepts t).1.1 h
  constructor
  · rintro rfl; revert h'; cases ty <;> decide
  · rintro rfl; revert h'; decide

/-- **C32**, behaviour: a custom value (accepted token, any serializer) put and not touched since is refused at every
built-in type, is not taken for a deletion, and reads back whenever its own `from_bytes` inverts its `to_bytes`. -/
theorem C32_custom {α : Type} {codecs : ι → Codec} {i : ι} {page : Nat} {file : Bytes} {u : Nat} {q : Option Nat}
    {s0 s : Inst ι} {es es' : List (Ev ι)} {rs : List (Out Unit)} {k : String} {token : BitVec 32}
    (htok : typeTokenNew token = .ok token) (toB : α → Bytes) (fromB : Bytes → Out α) (v : α)
    (hrt : fromB (toB v) = .ok v)
    (hopen : openAt codecs i page file u q = some s0)
    (hrun : run codecs s0 (es ++ [.put k token (toB v)] ++ es') = some (s, rs)) (hok : ∀ r ∈ rs, r = .ok ())
    (hidle : s.phase = .idle) (hk : ∀ m ∈ calls es', Leaves k m) :
    s.getAs k token fromB = .ok v ∧ ∀ ty : Ty, s.get k ty = .err .typeMissMatch := by
  constructor
  · rw [get_after_put hopen hrun hok hidle hk, if_pos rfl, hrt]
  · intro ty
    unfold Inst.get
    rw [get_after_put hopen hrun hok hidle hk, if_neg (fun h => (C32_separate token htok ty).1 h.symm)]

/-- The guard of the model's `put` lets exactly the built-in and the accepted tokens through. -/
theorem tokenOk_iff (t : BitVec 32) : tokenOk t = true ↔ (∃ ty : Ty, t = ty.token) ∨ typeTokenNew t = .ok t := by
  have hb : t.toNat ≤ 10 → ∃ ty : Ty, t = ty.token := by
    intro h
    have : t = BitVec.ofNat 32 t.toNat := by simp
    have hc : ∀ n : Fin 11, ∃ ty : Ty, BitVec.ofNat 32 n.val = ty.token := by
      intro n
      match n with
      | 0 => exact ⟨.i32, rfl⟩
      | 1 => exact ⟨.str, rfl⟩
      | 2 => exact ⟨.bool, rfl⟩
      | 3 => exact ⟨.i64, rfl⟩
      | 4 => exact ⟨.f32, rfl⟩
      | 5 => exact ⟨.f64, rfl⟩
      | 6 => exact ⟨.byteArray, rfl⟩
      | 7 => exact ⟨.i32Array, rfl⟩
      | 8 => exact ⟨.i64Array, rfl⟩
      | 9 => exact ⟨.f32Array, rfl⟩
      | 10 => exact ⟨.f64Array, rfl⟩
    rw [this]; exact hc ⟨t.toNat, by omega⟩
  have hr : (reserved t = false) ↔ typeTokenNew t = .ok t := by
    unfold typeTokenNew; cases reserved t <;> simp
  unfold tokenOk
  simp only [Bool.or_eq_true, decide_eq_true_eq, Bool.not_eq_true']
  constructor
  · rintro (h | h)
    · exact .inl (hb h)
    · exact .inr (hr.1 h)
  · rintro (⟨ty, rfl⟩ | h)
    · left; cases ty <;> decide
    · exact .inr (hr.2 h)

example : typeTokenNew 101 = .ok 101 ∧ typeTokenNew (-1) = .ok (-1) ∧ typeTokenNew 100 = .panic ∧ typeTokenNew 0 = .panic := by
  decide

/-! ### C33 -/

/-- The serializer of a number of `n` bytes. -/
def numToBytes (n : Nat) {w : Nat} (x : BitVec w) : Bytes := beBytes n x.toNat

theorem arrLoop_spec (n w : Nat) (hw : w = 8 * n) : ∀ (k : Nat) (bs : Bytes), bs.length = n * k →
    (arrLoop n w k bs).length = k ∧ arrToBytes (numToBytes n) (arrLoop n w k bs) = bs := by
  intro k
  induction k with
  | zero => intro bs h; simp at h; subst h; simp [arrLoop, arrToBytes]
  | succ k ih =>
    intro bs h
    rw [Nat.mul_succ] at h
    have hlen : (bs.take n).length = n := by rw [List.length_take]; omega
    obtain ⟨h1, h2⟩ := ih (bs.drop n) (by rw [List.length_drop]; omega)
    refine ⟨by simp [arrLoop, h1], ?_⟩
    simp only [arrLoop, arrToBytes, h2]
    have hv : beVal (bs.take n) < 2 ^ w := by
      have := beVal_lt (bs.take n)
      rw [hlen] at this
      rw [hw, Nat.pow_mul]; exact this
    have : numToBytes n (BitVec.ofNat w (beVal (bs.take n))) = bs.take n := by
      unfold numToBytes
      rw [BitVec.toNat_ofNat, Nat.mod_eq_of_lt hv]
      have := beBytes_beVal (bs.take n)
      rw [hlen] at this
      exact this
    rw [this, List.take_append_drop]

/-- **C33**, arrays: reading bytes as an array of `n`-byte numbers succeeds exactly when the length is a multiple of
`n`; the result has `length / n` elements and serializes to the same bytes; otherwise `DataInvalid`. -/
theorem C33_arrays (n w : Nat) (hw : w = 8 * n) (bs : Bytes) :
    (bs.length % n = 0 → ∃ xs, arrFromBytes n w bs = .ok xs ∧ xs.length = bs.length / n ∧
      arrToBytes (numToBytes n) xs = bs) ∧
    (bs.length % n ≠ 0 → arrFromBytes n w bs = .err .dataInvalid) := by
  constructor
  · intro h
    have hk : bs.length = n * (bs.length / n) := by
      have := Nat.div_add_mod bs.length n
      omega
    obtain ⟨h1, h2⟩ := arrLoop_spec n w hw (bs.length / n) bs hk
    exact ⟨_, by simp [arrFromBytes, h], h1, h2⟩
  · intro h; simp [arrFromBytes, h]

/-- **C33** for the four numeric array types as `get` uses them. -/
theorem C33_typed (bs : Bytes) :
    ((∃ v, fromBytes .i32Array bs = .ok v ∧ toBytes .i32Array v = bs) ↔ bs.length % 4 = 0) ∧
    ((∃ v, fromBytes .f32Array bs = .ok v ∧ toBytes .f32Array v = bs) ↔ bs.length % 4 = 0) ∧
    ((∃ v, fromBytes .i64Array bs = .ok v ∧ toBytes .i64Array v = bs) ↔ bs.length % 8 = 0) ∧
    ((∃ v, fromBytes .f64Array bs = .ok v ∧ toBytes .f64Array v = bs) ↔ bs.length % 8 = 0) := by
  have h4 := C33_arrays 4 32 (by decide) bs
  have h8 := C33_arrays 8 64 (by decide) bs
  refine ⟨⟨?_, ?_⟩, ⟨?_, ?_⟩, ⟨?_, ?_⟩, ⟨?_, ?_⟩⟩
  · rintro ⟨v, hv, _⟩; refine Decidable.byContradiction fun h => ?_; simp only [fromBytes] at hv; rw [h4.2 h] at hv; cases hv
  · intro h; obtain ⟨xs, h1, _, h3⟩ := h4.1 h; exact ⟨xs, h1, h3⟩
  · rintro ⟨v, hv, _⟩; refine Decidable.byContradiction fun h => ?_; simp only [fromBytes] at hv; rw [h4.2 h] at hv; cases hv
  · intro h; obtain ⟨xs, h1, _, h3⟩ := h4.1 h; exact ⟨xs, h1, h3⟩
  · rintro ⟨v, hv, _⟩; refine Decidable.byContradiction fun h => ?_; simp only [fromBytes] at hv; rw [h8.2 h] at hv; cases hv
  · intro h; obtain ⟨xs, h1, _, h3⟩ := h8.1 h; exact ⟨xs, h1, h3⟩
  · rintro ⟨v, hv, _⟩; refine Decidable.byContradiction fun h => ?_; simp only [fromBytes] at hv; rw [h8.2 h] at hv; cases hv
  · intro h; obtain ⟨xs, h1, _, h3⟩ := h8.1 h; exact ⟨xs, h1, h3⟩

/-- **C33**, strings: reading succeeds exactly on the UTF-8 bytes of some string, and gives that string. -/
theorem C33_string (bs : Bytes) :
    (∀ s : String, strFromBytes bs = .ok s ↔ s.toByteArray.data.toList = bs) ∧
    (strFromBytes bs = .err .dataInvalid ↔ ¬ ∃ s : String, s.toByteArray.data.toList = bs) := by
  have key : ∀ s : String, strOfBytes bs = some s ↔ strBytes s = bs :=
    fun s => ⟨strBytes_of_strOfBytes, fun h => by rw [← h]; exact strOfBytes_strBytes s⟩
  constructor
  · intro s
    have := key s
    unfold strBytes at this
    rw [← this]
    unfold strFromBytes
    cases strOfBytes bs <;> simp
  · unfold strFromBytes
    cases h : strOfBytes bs with
    | none =>
      simp only [true_iff]
      rintro ⟨s, hs⟩
      have := (key s).2 hs
      rw [h] at this; cases this
    | some s =>
      simp only [reduceCtorEq, false_iff, Classical.not_not]
      exact ⟨s, (key s).1 h⟩

example : arrFromBytes 4 32 [0, 0, 0, 1, 255, 255, 255, 255] = .ok [1#32, -1#32] ∧
    arrFromBytes 4 32 [0, 0, 0] = .err .dataInvalid ∧ strFromBytes [0xff] = .err .dataInvalid ∧
    strFromBytes [0xe4, 0xbd, 0xa0] = .ok "你" := by decide +kernel

end Mmkv
