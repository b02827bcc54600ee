import Verif.Props.Bindings
/-!
# C53: does `get` ever panic?
-/

namespace Mmkv
open Spec Inst
variable {ι : Type}

/-- The number of bytes `from_bytes` of a type indexes without looking: numbers their own size, `bool` one. -/
def Ty.least : Ty → Nat
  | .i32 => 4
  | .f32 => 4
  | .i64 => 8
  | .f64 => 8
  | .bool => 1
  | _ => 0

theorem numFromBytes_panic (n w : Nat) (bs : Bytes) : numFromBytes n w bs = .panic ↔ bs.length < n := by
  unfold numFromBytes
  split <;> simp_all

theorem arrFromBytes_panic (n w : Nat) (bs : Bytes) : arrFromBytes n w bs ≠ .panic := by
  unfold arrFromBytes
  split <;> simp

theorem fromBytes_panic (t : Ty) (bs : Bytes) : fromBytes t bs = .panic ↔ bs.length < t.least := by
  cases t with
  | i32 => exact numFromBytes_panic 4 32 bs
  | f32 => exact numFromBytes_panic 4 32 bs
  | i64 => exact numFromBytes_panic 8 64 bs
  | f64 => exact numFromBytes_panic 8 64 bs
  | bool =>
    show boolFromBytes bs = .panic ↔ bs.length < 1
    cases bs <;> simp [boolFromBytes]
  | str =>
    show strFromBytes bs = .panic ↔ bs.length < 0
    unfold strFromBytes
    split <;> simp
  | byteArray =>
    show (Out.ok bs = .panic) ↔ bs.length < 0
    simp
  | i32Array => exact ⟨fun h => absurd h (arrFromBytes_panic 4 32 bs), fun h => absurd h (Nat.not_lt_zero _)⟩
  | i64Array => exact ⟨fun h => absurd h (arrFromBytes_panic 8 64 bs), fun h => absurd h (Nat.not_lt_zero _)⟩
  | f32Array => exact ⟨fun h => absurd h (arrFromBytes_panic 4 32 bs), fun h => absurd h (Nat.not_lt_zero _)⟩
  | f64Array => exact ⟨fun h => absurd h (arrFromBytes_panic 8 64 bs), fun h => absurd h (Nat.not_lt_zero _)⟩

/-- **C53**, exactly when it fails: `get` panics if and only if the key holds, under the token of the type asked for, fewer
bytes than the type needs. -/
theorem C53_exactly {s : Inst ι} {S : Store} (h : s.Shows S) (k : String) (t : Ty) :
    s.get k t = .panic ↔ ∃ e, S k = some e ∧ e.token = t.token ∧ e.bytes.length < t.least := by
  have hg : s.get k t = Store.lookup S k t.token (fromBytes t) := h _ _ _ _
  rw [hg]
  unfold Store.lookup
  cases hk : S k with
  | none => simp
  | some e =>
    by_cases ht : t.token = e.token
    · simp only [ht, if_true, fromBytes_panic]
      simp
    · simp only [ht, if_false]
      constructor
      · intro h; cases h
      · rintro ⟨e', he', h1, _⟩
        injection he' with he'
        subst he'
        exact absurd h1.symm ht

/-- A file whose two records - whole, with correct checksums - hold one byte under the token of `i32`, and none under the
token of `bool`. -/
def shortFile : Bytes := fileOf [record ⟨"k", Ty.i32.token, [1]⟩, record ⟨"b", Ty.bool.token, []⟩] (zeros 30)

/-- **C53 is false of this program**: a data file not written by the library, though made of whole records with correct
checksums, opens, and then `get` panics. -/
theorem C53_refuted (page : Nat) : ∃ (file : Bytes) (s : Inst Unit), openAt plain () page file = some s ∧
    s.get "k" .i32 = .panic ∧ s.get "b" .bool = .panic := by
  have key : ∀ (file : Bytes) (items : List (Option Buffer)), file.length ≠ 0 → fileRecords crcCodec file = some items →
      ∃ s : Inst Unit, openAt plain () page file = some s ∧ s.poisoned = false ∧ s.valid = true ∧ s.kv = (intoMap items).1 := by
    intro file items hne hr
    have hr' : WState.readItems { file := file, mmLen := file.length, page := page, position := 0, needTrim := false } crcCodec = some items := hr
    have : openAt plain () page file = some (Inst.mk () (intoMap items).1 true false .idle false
        (Looper.new (Cb.mk (WState.mk file file.length page (intoMap items).2 false 8 none []) false))) := by
      unfold openAt openStore plain
      simp only [configNew, hne, if_false, hr']
    exact ⟨_, this, rfl, rfl, rfl⟩
  obtain ⟨s, h1, h2, h3, h4⟩ := key shortFile [some ⟨"k", Ty.i32.token, [1]⟩, some ⟨"b", Ty.bool.token, []⟩]
    (by decide +kernel) (by decide +kernel)
  refine ⟨shortFile, s, h1, ?_, ?_⟩
  · unfold Inst.get Inst.getAs
    rw [h2, h3, h4]
    exact (numFromBytes_panic 4 32 [1]).2 (by decide)
  · unfold Inst.get Inst.getAs
    rw [h2, h3, h4]
    rfl

/-- Only typed values are put under built-in tokens: what `put::<T>` does for the built-in types, and all a custom type
can do (`TypeToken::new` refuses the built-in tokens, C32). -/
def Ev.Typed : Ev ι → Prop
  | .put _ t bs => Spec.Entry.Typed ⟨t, bs⟩
  | _ => True

theorem typed_calls {es : List (Ev ι)} (h : ∀ e ∈ es, e.Typed) : ∀ k e, Mutation.put k e ∈ calls es → Spec.Entry.Typed e := by
  intro k e hm
  unfold calls at hm
  obtain ⟨ev, hev, hc⟩ := List.mem_filterMap.1 hm
  cases ev <;> simp only [Ev.call?, Option.some.injEq, reduceCtorEq, Mutation.put.injEq] at hc
  obtain ⟨rfl, rfl⟩ := hc
  exact h _ hev

theorem typed_survives {S S' : Store} {xs : List (List Mutation × Bool)} (h : Survives S xs S')
    (hS : ∀ k e, S k = some e → Spec.Entry.Typed e) (hm : ∀ x ∈ xs, ∀ k e, Mutation.put k e ∈ x.1 → Spec.Entry.Typed e) :
    ∀ k e, S' k = some e → Spec.Entry.Typed e := by
  induction h with
  | nil => exact hS
  | cons m _ _ _ ih =>
    refine ih (typed_run hS fun k e hk => hm _ List.mem_cons_self k e (List.mem_of_mem_take hk))
      fun x hx => hm x (List.mem_cons_of_mem _ hx)

theorem typed_no_panic {s : Inst ι} {S : Store} (h : s.Shows S) (ht : ∀ k e, S k = some e → Spec.Entry.Typed e) (k : String) (t : Ty) :
    s.get k t ≠ .panic := by
  rw [Ne, C53_exactly h]
  rintro ⟨e, he, htok, hlen⟩
  obtain ⟨v, hv⟩ := ht k e he t htok
  have := fromBytes_toBytes t v
  rw [← hv] at this
  rw [(fromBytes_panic t e.bytes).2 hlen] at this
  cases this

/-- **C53**, one session: opened on a file that shows only typed entries, whatever typed calls follow, `get` does not panic.
Missing from C53: files not written by the library (`C53_refuted`). -/
theorem C53_partial {codecs : ι → Codec} {i : ι} {page : Nat} {file : Bytes} {u : Nat} {q : Option Nat}
    {s0 s : Inst ι} {S0 : Store} {es : List (Ev ι)} {rs : List (Out Unit)}
    (hopen : openAt codecs i page file u q = some s0) (h0 : s0.Shows S0) (ht0 : ∀ k e, S0 k = some e → Spec.Entry.Typed e)
    (hrun : run codecs s0 es = some (s, rs)) (hok : ∀ r ∈ rs, r = .ok ()) (hidle : s.phase = .idle)
    (hte : ∀ e ∈ es, e.Typed) (k : String) (t : Ty) : s.get k t ≠ .panic :=
  typed_no_panic (C01_latest_write_wins hopen h0 hrun hok hidle) (typed_run ht0 (typed_calls hte)) k t

/-- **C53**, the life of a directory: whatever sessions of typed calls it has been through, closed or killed between two
background writes, what opens then shows only typed entries; `get` does not panic, then or after further typed calls. -/
theorem C53_life_partial {page : Nat} (h8 : 8 ≤ page) (h32 : page < 2 ^ 32) {xs : List (Session Unit)}
    {rss : List (List (Out Unit))} {d : Dir Unit} (hl : Life plain page Dir.fresh xs rss d)
    (hfit : ∀ x ∈ xs, ∀ e ∈ x.evs, e.Fits page) (hty : ∀ x ∈ xs, ∀ e ∈ x.evs, e.Typed)
    (hroom : page * callCount xs + 8 < 2 ^ 64) :
    ∃ s0, openAt plain () page d.file = some s0 ∧ ∀ es s rs, run plain s0 es = some (s, rs) → (∀ r ∈ rs, r = .ok ()) →
      s.phase = .idle → (∀ e ∈ es, e.Typed) → ∀ k t, s.get k t ≠ .panic := by
  obtain ⟨hr, S, hS, hg⟩ := life_survives (E := plainEnv page h8 False) (K := 0) hl (goodDir_fresh _ 0)
    (fun x hx e he => (hfit x hx e he).ok h32) (by rw [Nat.zero_add]; exact plain_room hroom)
  obtain ⟨s0, hs, hv⟩ := openAt_goodDir hg () (fun _ _ => rfl)
  have hsh := shows_of_view hs hv
  have hST := typed_survives hS (fun k e h => by simp [Store.empty] at h) (by
    intro x hx k e hm
    simp only [sessionCalls, List.mem_map] at hx
    obtain ⟨y, hy, rfl⟩ := hx
    exact typed_calls (hty y hy) k e hm)
  exact ⟨s0, hs, fun es s rs h1 h2 h3 h4 k t => C53_partial hs hsh hST h1 h2 h3 h4 k t⟩

/-- Typed calls: a put of every kind the library offers; and one that is not. -/
example : (∀ (k : String) (t : Ty) (v : t.Val), Ev.Typed (ι := Unit) (.put k t.token (toBytes t v))) ∧
    Ev.Typed (ι := Unit) (.put "k" 101 [1, 2, 3]) ∧ ¬ Ev.Typed (ι := Unit) (.put "k" 0 [1]) := by
  refine ⟨fun k t v t' ht => ?_, fun t ht => ?_, fun h => ?_⟩
  · have := token_injective ht
    subst this
    exact ⟨v, rfl⟩
  · exfalso; revert ht; cases t <;> decide
  · obtain ⟨v, hv⟩ := h .i32 rfl
    have := congrArg List.length hv
    simp [toBytes, num32ToBytes] at this

end Mmkv
