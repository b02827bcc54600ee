import Verif.Model.Bindings
import Verif.Props.Failure
import Verif.Props.Logger
/-!
# The bindings: C39, C40, C43, C52
-/

namespace Mmkv
open Spec Inst
variable {ι : Type}

/-! ### C52: strings through the C interface -/

theorem utf8_no_zero {c : Char} (hc : c ≠ '\x00') : ∀ b ∈ String.utf8EncodeChar c, b ≠ 0 := by
  have hv : c.val.toNat ≠ 0 := by
    intro h
    apply hc
    apply Char.ext
    apply UInt32.toNat_inj.1
    simpa using h
  have key : ∀ n : Nat, 0 < n → n < 256 → UInt8.ofNat n ≠ 0 := by
    intro n h0 h1 h2
    have := congrArg UInt8.toNat h2
    simp at this
    omega
  intro b hb
  unfold String.utf8EncodeChar at hb
  simp only at hb
  split at hb
  · simp only [List.mem_singleton] at hb; subst hb; exact key _ (by omega) (by omega)
  split at hb
  · simp only [List.mem_cons, List.not_mem_nil, or_false] at hb
    rcases hb with rfl | rfl <;> exact key _ (by omega) (by omega)
  split at hb
  · simp only [List.mem_cons, List.not_mem_nil, or_false] at hb
    rcases hb with rfl | rfl | rfl <;> exact key _ (by omega) (by omega)
  · simp only [List.mem_cons, List.not_mem_nil, or_false] at hb
    rcases hb with rfl | rfl | rfl | rfl <;> exact key _ (by omega) (by omega)

theorem strBytes_ofList (l : List Char) : strBytes (String.ofList l) = l.flatMap String.utf8EncodeChar := by
  unfold strBytes
  rw [String.toByteArray_ofList]
  simp [List.utf8Encode]

theorem takeWhile_append_all {α : Type} (p : α → Bool) (a b : List α) (h : ∀ x ∈ a, p x = true) :
    (a ++ b).takeWhile p = a ++ b.takeWhile p := by
  induction a with
  | nil => rfl
  | cons x a ih =>
    simp only [List.cons_append, List.takeWhile_cons, h x List.mem_cons_self, if_true]
    rw [ih fun y hy => h y (List.mem_cons_of_mem _ hy)]

theorem takeWhile_utf8 (l : List Char) : (l.flatMap String.utf8EncodeChar).takeWhile (fun b => decide (b ≠ 0)) =
    (l.takeWhile fun c => decide (c ≠ '\x00')).flatMap String.utf8EncodeChar := by
  induction l with
  | nil => rfl
  | cons c l ih =>
    by_cases hc : c = '\x00'
    · subst hc
      have : String.utf8EncodeChar '\x00' = [0] := by decide
      simp [this]
    · have hb := utf8_no_zero hc
      rw [List.flatMap_cons, takeWhile_append_all _ _ _ (by simpa using hb), ih]
      simp [hc]

/-- **C52**, exactly: a string passed to the C interface arrives cut off at its first NUL character; the call does not crash. -/
theorem C52_cut_at_nul (s : String) : cArg s = .ok (String.ofList (s.toList.takeWhile fun c => decide (c ≠ '\x00'))) := by
  have h : strBytes s = s.toList.flatMap String.utf8EncodeChar := by
    rw [← strBytes_ofList, String.ofList_toList]
  unfold cArg
  rw [h, takeWhile_utf8, ← strBytes_ofList, strOfBytes_strBytes]

/-- **C52**, what is true: a string without NUL characters arrives as it is.  Missing from C52: strings with a NUL. -/
theorem C52_partial (s : String) : cArg s = .ok s ↔ '\x00' ∉ s.toList := by
  rw [C52_cut_at_nul]
  have hself : s = String.ofList s.toList := (String.ofList_toList).symm
  constructor
  · intro h hm
    have h1 : String.ofList (s.toList.takeWhile fun c => decide (c ≠ '\x00')) = s := by simpa using h
    have h2 := congrArg String.toList h1
    rw [String.toList_ofList] at h2
    rw [← h2] at hm
    have := List.all_eq_true.1 List.all_takeWhile _ hm
    simp at this
  · intro hm
    have : (s.toList.takeWhile fun c => decide (c ≠ '\x00')) = s.toList := by
      have := takeWhile_append_all (fun c => decide (c ≠ '\x00')) s.toList [] (by
        intro x hx; simp only [decide_eq_true_eq]; rintro rfl; exact hm hx)
      simpa using this
    rw [this, String.ofList_toList]

/-- **C52**, string values: the call that reaches the store when a string is put through the Swift binding has key and value cut off at
their first NUL; so the value arrives as it is if and only if it has none. -/
theorem C52_value {ι : Type} (k v : String) :
    (Swift.put k .str v : Option (Ev ι)) = some (.put (String.ofList (k.toList.takeWhile fun c => decide (c ≠ '\x00'))) Ty.str.token
      (strBytes (String.ofList (v.toList.takeWhile fun c => decide (c ≠ '\x00'))))) ∧
    (Swift.arg .str v = .ok v ↔ '\x00' ∉ v.toList) := by
  refine ⟨?_, C52_partial v⟩
  have hv : Swift.arg .str v = .ok (String.ofList (v.toList.takeWhile fun c => decide (c ≠ '\x00'))) := C52_cut_at_nul v
  simp only [Swift.put, C52_cut_at_nul k, hv]
  rfl

/-- **C52 is false of this program**: two different keys are one key for a C caller; a value put under one is read (and
overwritten) under the other. -/
theorem C52_refuted {codecs : ι → Codec} {page : Nat} {file : Bytes} {u : Nat} {q : Option Nat} {i : ι}
    {s0 s : Inst ι} {es es' : List (Ev ι)} {rs : List (Out Unit)} (t : Ty) (v : t.Val) (k rest : String)
    (hk : '\x00' ∉ k.toList) {ev : Ev ι} (hput : Swift.put (k ++ "\x00" ++ rest) t v = some ev)
    (hopen : openAt codecs i page file u q = some s0)
    (hrun : run codecs s0 (es ++ [ev] ++ es') = some (s, rs)) (hok : ∀ r ∈ rs, r = .ok ())
    (hidle : s.phase = .idle) (hleave : ∀ m ∈ calls es', Leaves k m) :
    k ++ "\x00" ++ rest ≠ k ∧ ∃ w, Swift.arg t v = .ok w ∧ s.get k t = .ok w := by
  have hcut : cArg (k ++ "\x00" ++ rest) = .ok k := by
    rw [C52_cut_at_nul]
    have h1 : (k ++ "\x00" ++ rest).toList = k.toList ++ '\x00' :: rest.toList := by simp [String.toList_append]
    rw [h1, takeWhile_append_all _ _ _ (by intro x hx; simp only [decide_eq_true_eq]; rintro rfl; exact hk hx)]
    simp
  refine ⟨?_, ?_⟩
  · intro h
    have := congrArg (fun s : String => s.toList.length) h
    simp [String.toList_append] at this
  · unfold Swift.put at hput
    rw [hcut] at hput
    cases hw : Swift.arg t v with
    | ok w =>
      rw [hw] at hput
      simp only [Option.some.injEq] at hput
      subst hput
      exact ⟨w, rfl, C02_put_get t w hopen hrun hok hidle hleave⟩
    | err e => rw [hw] at hput; cases hput
    | panic => rw [hw] at hput; cases hput

/-! ### C39: values through the bindings -/

theorem region_all {α : Type} (z : α) (l : List α) : Kotlin.region (List.replicate l.length z) l = l := by
  simp [Kotlin.region]

theorem kotlin_roundtrip (t : Ty) (v : Kotlin.Val t) : Kotlin.ofNative t (Kotlin.toNative t v) = v := by
  cases t with
  | bool => cases v <;> rfl
  | byteArray =>
    simp only [Kotlin.ofNative, Kotlin.toNative, Kotlin.jarrayToNative, Kotlin.nativeToJarray, region_all, List.map_map]
    exact (List.map_congr_left fun x _ => show x.toUInt8.toInt8 = x from by simp).trans (List.map_id _)
  | i32Array => simp only [Kotlin.ofNative, Kotlin.toNative, Kotlin.jarrayToNative, Kotlin.nativeToJarray, region_all]
  | i64Array => simp only [Kotlin.ofNative, Kotlin.toNative, Kotlin.jarrayToNative, Kotlin.nativeToJarray, region_all]
  | f32Array => simp only [Kotlin.ofNative, Kotlin.toNative, Kotlin.jarrayToNative, Kotlin.nativeToJarray, region_all]
  | f64Array => simp only [Kotlin.ofNative, Kotlin.toNative, Kotlin.jarrayToNative, Kotlin.nativeToJarray, region_all]
  | _ => rfl

/-- A value that is not a string with a NUL character. -/
def noNul : (t : Ty) → t.Val → Prop
  | .str, v => '\x00' ∉ String.toList v
  | _, _ => True

/-- **C39**, Kotlin: a value of any type - arrays of any length, zero included - put through the binding reads back equal. -/
theorem C39_kotlin {codecs : ι → Codec} {i : ι} {page : Nat} {file : Bytes} {u : Nat} {q : Option Nat}
    {s0 s : Inst ι} {es es' : List (Ev ι)} {rs : List (Out Unit)} {k : String} (t : Ty) (v : Kotlin.Val t)
    (hopen : openAt codecs i page file u q = some s0)
    (hrun : run codecs s0 (es ++ [Kotlin.put k t v] ++ es') = some (s, rs)) (hok : ∀ r ∈ rs, r = .ok ())
    (hidle : s.phase = .idle) (hk : ∀ m ∈ calls es', Leaves k m) : Kotlin.get s k t = .value v := by
  have := C02_put_get t (Kotlin.toNative t v) hopen hrun hok hidle hk
  simp only [Kotlin.get, this, kotlin_roundtrip]

/-- An array without elements. -/
def noElements : (t : Ty) → t.Val → Bool
  | .byteArray, v => List.isEmpty v
  | .i32Array, v => List.isEmpty v
  | .i64Array, v => List.isEmpty v
  | .f32Array, v => List.isEmpty v
  | .f64Array, v => List.isEmpty v
  | _, _ => false

theorem mapM_get {α : Type} (l : List α) : ((List.range l.length).mapM fun i => l[i]?) = some l := by
  have key : ∀ (n : Nat), n ≤ l.length → ((List.range n).mapM fun i => l[i]?) = some (l.take n) := by
    intro n
    induction n with
    | zero => intro _; rfl
    | succ n ih =>
      intro h
      rw [List.range_succ, List.mapM_append, ih (by omega)]
      have h2 : l[n]? = some l[n] := List.getElem?_eq_getElem (by omega)
      simp only [List.mapM_cons, List.mapM_nil, h2]
      rw [List.take_add_one, h2]
      rfl
  rw [key _ (Nat.le_refl _), List.take_length]

theorem readArray_spec {α : Type} (l : List α) : Swift.readArray l = if l.isEmpty then none else some l := by
  unfold Swift.readArray Swift.closedRange
  cases l with
  | nil => rfl
  | cons a l =>
    have h : ¬ (((a :: l).length : Int) - 1 < 0) := by simp
    rw [if_neg h]
    simp only [Option.bind_some, List.isEmpty_cons, Bool.false_eq_true, if_false]
    exact mapM_get (a :: l)

theorem copyOut_spec (t : Ty) (v : t.Val) : Swift.copyOut t v = if noElements t v then none else some v := by
  cases t <;> first | rfl | exact readArray_spec (α := _) v

theorem swift_get {s : Inst ι} {k : String} {t : Ty} {v : t.Val} (hk : '\x00' ∉ k.toList) (hg : s.get k t = .ok v) (h : Ffi.Heap) :
    (Swift.get s h k t).1 = if noElements t v then .crash else .success v := by
  unfold Swift.get
  rw [(C52_partial k).2 hk]
  simp only [hg]
  cases hr : Ffi.getRet h t (.ok v) with
  | abort => simp [Ffi.getRet] at hr
  | ok h' p =>
    obtain ⟨fp, sn, hsn, hf, ho⟩ := Ffi.ret_spec (o := .get t (.ok v)) hr
    simp only [Ffi.Outcome.shows, Option.some.injEq] at hsn
    subst hsn
    obtain ⟨h1, h2⟩ := ho h' fun _ _ => rfl
    simp only [Ffi.Outcome.ty] at h1
    simp only [h1, h2, copyOut_spec]
    cases noElements t v <;> rfl

theorem swift_put {t : Ty} {v w : t.Val} {k : String} {ev : Ev ι} (hk : '\x00' ∉ k.toList) (hw : Swift.arg t v = .ok w)
    (hput : Swift.put k t v = some ev) : ev = .put k t.token (toBytes t w) := by
  unfold Swift.put at hput
  rw [(C52_partial k).2 hk, hw] at hput
  simpa using hput.symm

theorem swift_arg (t : Ty) (v : t.Val) (hv : noNul t v) : Swift.arg t v = .ok v := by
  cases t with
  | str => exact (C52_partial v).2 hv
  | _ => rfl

/-- **C39**, Swift, what is true: every value except an empty array (and except keys and strings with a NUL, C52) put
through the binding reads back equal.  Missing from C39: empty arrays (`C39_refuted`). -/
theorem C39_swift_partial {codecs : ι → Codec} {i : ι} {page : Nat} {file : Bytes} {u : Nat} {q : Option Nat}
    {s0 s : Inst ι} {es es' : List (Ev ι)} {rs : List (Out Unit)} {k : String} (t : Ty) (v : t.Val)
    (hkey : '\x00' ∉ k.toList) (hv : noNul t v) (hne : noElements t v = false)
    {ev : Ev ι} (hput : Swift.put k t v = some ev) (hopen : openAt codecs i page file u q = some s0)
    (hrun : run codecs s0 (es ++ [ev] ++ es') = some (s, rs)) (hok : ∀ r ∈ rs, r = .ok ())
    (hidle : s.phase = .idle) (hk : ∀ m ∈ calls es', Leaves k m) (h : Ffi.Heap) :
    (Swift.get s h k t).1 = .success v := by
  have := swift_put hkey (swift_arg t v hv) hput
  subst this
  rw [swift_get hkey (C02_put_get t v hopen hrun hok hidle hk), hne]
  rfl

/-- **C39 is false of this program**: an empty array of any element type is stored, and then reading it through the Swift
binding crashes the process - also with a default, `unwrap(default)`. -/
theorem C39_refuted {codecs : ι → Codec} {i : ι} {page : Nat} {file : Bytes} {u : Nat} {q : Option Nat}
    {s0 s : Inst ι} {es es' : List (Ev ι)} {rs : List (Out Unit)} {k : String} (t : Ty) (v : t.Val)
    (hkey : '\x00' ∉ k.toList) (hempty : noElements t v = true)
    {ev : Ev ι} (hput : Swift.put k t v = some ev) (hopen : openAt codecs i page file u q = some s0)
    (hrun : run codecs s0 (es ++ [ev] ++ es') = some (s, rs)) (hok : ∀ r ∈ rs, r = .ok ())
    (hidle : s.phase = .idle) (hk : ∀ m ∈ calls es', Leaves k m) (h : Ffi.Heap) :
    s.get k t = .ok v ∧ (Swift.get s h k t).1 = .crash ∧ ∀ d, Swift.getOr s h k t d = .crash := by
  have hv : noNul t v := by
    cases t <;> first | trivial | simp [noElements] at hempty
  have := swift_put hkey (swift_arg t v hv) hput
  subst this
  have hg := C02_put_get t v hopen hrun hok hidle hk
  have hc : (Swift.get s h k t).1 = .crash := by rw [swift_get hkey hg, hempty]; rfl
  exact ⟨hg, hc, fun d => by simp only [Swift.getOr, hc]⟩

/-! ### C40: Kotlin defaults -/

/-- An entry under a built-in token holds a value of that type. -/
def _root_.Spec.Entry.Typed (e : Entry) : Prop := ∀ t : Ty, e.token = t.token → ∃ v : t.Val, e.bytes = toBytes t v

theorem typed_run {S : Store} {ms : List Mutation} (hS : ∀ k e, S k = some e → Spec.Entry.Typed e)
    (hm : ∀ k e, Mutation.put k e ∈ ms → Spec.Entry.Typed e) : ∀ k e, (S.run ms) k = some e → Spec.Entry.Typed e := by
  induction ms generalizing S with
  | nil => exact hS
  | cons m ms ih =>
    refine ih (S := S.apply m) ?_ fun k e h => hm k e (List.mem_cons_of_mem _ h)
    intro k e hk
    cases m with
    | put k' e' =>
      simp only [Store.apply] at hk
      split at hk
      · cases hk; exact hm _ _ List.mem_cons_self
      · exact hS _ _ hk
    | delete k' =>
      simp only [Store.apply] at hk
      split at hk
      · cases hk
      · exact hS _ _ hk
    | clear => cases hk

/-- **C40.** On a store whose entries under built-in tokens were written at their types - from the start and by every call
since - `getX(key)` and `getX(key, default)` give the value if the plain map holds one of that type under the key; else the
one throws `KeyNotFoundException` and the other gives the default. -/
theorem C40_default {codecs : ι → Codec} {i : ι} {page : Nat} {file : Bytes} {u : Nat} {q : Option Nat}
    {s0 s : Inst ι} {S0 : Store} {es : List (Ev ι)} {rs : List (Out Unit)}
    (hopen : openAt codecs i page file u q = some s0) (h0 : s0.Shows S0) (ht0 : ∀ k e, S0 k = some e → Spec.Entry.Typed e)
    (hrun : run codecs s0 es = some (s, rs)) (hok : ∀ r ∈ rs, r = .ok ()) (hidle : s.phase = .idle)
    (hte : ∀ k e, Mutation.put k e ∈ calls es → Spec.Entry.Typed e) (k : String) (t : Ty) (d : Kotlin.Val t) :
    (∀ v : t.Val, (S0.run (calls es)) k = some ⟨t.token, toBytes t v⟩ →
      Kotlin.get s k t = .value (Kotlin.ofNative t v) ∧ Kotlin.getOr s k t d = .value (Kotlin.ofNative t v)) ∧
    ((¬ ∃ v : t.Val, (S0.run (calls es)) k = some ⟨t.token, toBytes t v⟩) →
      Kotlin.get s k t = .keyNotFound ∧ Kotlin.getOr s k t d = .value d) := by
  have hs := C01_latest_write_wins hopen h0 hrun hok hidle t.Val k t.token (fromBytes t)
  have hty := typed_run ht0 hte k
  generalize S0.run (calls es) = S at hs hty
  have hg : s.get k t = Store.lookup S k t.token (fromBytes t) := hs
  constructor
  · intro v hv
    have : s.get k t = .ok v := by
      rw [hg]; simp [Store.lookup, hv, fromBytes_toBytes]
    have h1 : Kotlin.get s k t = .value (Kotlin.ofNative t v) := by simp only [Kotlin.get, this]
    exact ⟨h1, by simp only [Kotlin.getOr, h1]⟩
  · intro hno
    have : ∃ e, s.get k t = .err e := by
      rw [hg]
      unfold Store.lookup
      cases hk : S k with
      | none => exact ⟨_, rfl⟩
      | some e =>
        by_cases htok : t.token = e.token
        · exfalso
          obtain ⟨v, hv⟩ := hty e hk t htok.symm
          refine hno ⟨v, ?_⟩
          obtain ⟨tok, bs⟩ := e
          simp only at htok hv
          rw [hk, htok, hv]
        · exact ⟨_, by simp [htok]; rfl⟩
    obtain ⟨e, he⟩ := this
    have h1 : Kotlin.get s k t = .keyNotFound := by simp only [Kotlin.get, he]
    exact ⟨h1, by simp only [Kotlin.getOr, h1]⟩

/-- **C40**, errors: whatever the state of the store - closed, poisoned, thread dead - if `get` fails with an error the
Kotlin caller sees `KeyNotFoundException`, or the default. -/
theorem C40_any_error (s : Inst ι) (k : String) (t : Ty) (d : Kotlin.Val t) {e : Error} (he : s.get k t = .err e) :
    Kotlin.get s k t = .keyNotFound ∧ Kotlin.getOr s k t d = .value d := by
  have h1 : Kotlin.get s k t = .keyNotFound := by simp only [Kotlin.get, he]
  exact ⟨h1, by simp only [Kotlin.getOr, h1]⟩

/-- **C40**, no default otherwise: `getX(key, default)` is the default of `getX(key)` only where `getX(key)` throws
`KeyNotFoundException`; a stored value comes back as it is, and a call that panics (a poisoned lock, a value that does not
decode) gives neither. -/
theorem C40_nothing_else (s : Inst ι) (k : String) (t : Ty) (d : Kotlin.Val t) :
    (∀ v, Kotlin.get s k t = .value v → Kotlin.getOr s k t d = .value v) ∧
      (s.get k t = .panic → Kotlin.get s k t = .crash ∧ Kotlin.getOr s k t d = .crash) ∧
      (Kotlin.get s k t = .keyNotFound ↔ ∃ e, s.get k t = .err e) := by
  refine ⟨fun v hv => by simp only [Kotlin.getOr, hv], fun hp => ?_, ?_⟩
  · have h1 : Kotlin.get s k t = .crash := by simp only [Kotlin.get, hp]
    exact ⟨h1, by simp only [Kotlin.getOr, h1]⟩
  · unfold Kotlin.get
    cases s.get k t <;> simp

/-! ### C86: Swift defaults -/

theorem swift_get_err {s : Inst ι} {k : String} {t : Ty} {e : Error} (hk : '\x00' ∉ k.toList) (hg : s.get k t = .err e) (h : Ffi.Heap) :
    (Swift.get s h k t).1 = match Ffi.documented e with
      | some (code, reason) => .failure code (reason.map strBytes)
      | none => .crash := by
  unfold Swift.get
  rw [(C52_partial k).2 hk]
  simp only [hg]
  have hret : Ffi.getRet h t (.err e) = (Ffi.Outcome.get t (.err e)).ret h := rfl
  rw [hret]
  cases hr : (Ffi.Outcome.get t (.err e)).ret h with
  | abort =>
    simp only [Ffi.ret_abort, Ffi.Outcome.shows, Option.map_eq_none_iff] at hr
    simp only [hr]
  | ok h' p =>
    obtain ⟨fp, sn, hsn, hf, ho⟩ := Ffi.ret_spec hr
    simp only [Ffi.Outcome.shows, Option.map_eq_some_iff] at hsn
    obtain ⟨d, hd, rfl⟩ := hsn
    obtain ⟨h1, h2⟩ := ho h' fun _ _ => rfl
    have h1' : Ffi.look h' p t = some (.error d.1 (d.2.map strBytes)) := h1
    simp only [h1', h2, hd]

/-- **C86**, what is true: `getX(key).unwrapResult()` and `getX(key).unwrap(default)` give the value if the plain map holds one of that type under the
key; if the map has nothing under the key the one is a failure with code 0 and if it holds another type with code 2, without a reason,
and the other gives the default.  Keys have no NUL (C52).  Missing from C86: a stored empty array (`C86_refuted`). -/
theorem C86_partial {codecs : ι → Codec} {i : ι} {page : Nat} {file : Bytes} {u : Nat} {q : Option Nat}
    {s0 s : Inst ι} {S0 : Store} {es : List (Ev ι)} {rs : List (Out Unit)}
    (hopen : openAt codecs i page file u q = some s0) (h0 : s0.Shows S0)
    (hrun : run codecs s0 es = some (s, rs)) (hok : ∀ r ∈ rs, r = .ok ()) (hidle : s.phase = .idle)
    (k : String) (hkey : '\x00' ∉ k.toList) (t : Ty) (d : t.Val)
    (h : Ffi.Heap) :
    (∀ v : t.Val, (S0.run (calls es)) k = some ⟨t.token, toBytes t v⟩ → noElements t v = false →
      (Swift.get s h k t).1 = .success v ∧ Swift.getOr s h k t d = .success v) ∧
    ((S0.run (calls es)) k = none → (Swift.get s h k t).1 = .failure 0 none ∧ Swift.getOr s h k t d = .success d) ∧
    (∀ e, (S0.run (calls es)) k = some e → e.token ≠ t.token →
      (Swift.get s h k t).1 = .failure 2 none ∧ Swift.getOr s h k t d = .success d) := by
  have hs := C01_latest_write_wins hopen h0 hrun hok hidle t.Val k t.token (fromBytes t)
  generalize S0.run (calls es) = S at hs
  have hg : s.get k t = Store.lookup S k t.token (fromBytes t) := hs
  refine ⟨?_, ?_, ?_⟩
  · intro v hv hne
    have : s.get k t = .ok v := by rw [hg]; simp [Store.lookup, hv, fromBytes_toBytes]
    have h1 := swift_get hkey this h
    rw [hne] at h1
    exact ⟨h1, by simp only [Swift.getOr, h1]; rfl⟩
  · intro hv
    have : s.get k t = .err .keyNotFound := by rw [hg]; simp [Store.lookup, hv]
    have h1 : (Swift.get s h k t).1 = .failure 0 none := swift_get_err hkey this h
    exact ⟨h1, by simp only [Swift.getOr, h1]⟩
  · intro e hv hne
    have : s.get k t = .err .typeMissMatch := by
      rw [hg]; simp [Store.lookup, hv, Ne.symm hne]
    have h1 : (Swift.get s h k t).1 = .failure 2 none := swift_get_err hkey this h
    exact ⟨h1, by simp only [Swift.getOr, h1]⟩

/-- **C86**, errors: whatever the state of the store - closed, thread dead - an error of `get` is a failure with its documented code and
reason and `unwrap(default)` gives the default; an error without a code, and a panic, end the process in both. -/
theorem C86_any_error_partial (s : Inst ι) (h : Ffi.Heap) (k : String) (hkey : '\x00' ∉ k.toList) (t : Ty) (d : t.Val) :
    (∀ e code reason, s.get k t = .err e → Ffi.documented e = some (code, reason) →
      (Swift.get s h k t).1 = .failure code (reason.map strBytes) ∧ Swift.getOr s h k t d = .success d) ∧
    (∀ e, s.get k t = .err e → Ffi.documented e = none → (Swift.get s h k t).1 = .crash ∧ Swift.getOr s h k t d = .crash) ∧
    (s.get k t = .panic → (Swift.get s h k t).1 = .crash ∧ Swift.getOr s h k t d = .crash) := by
  refine ⟨?_, ?_, ?_⟩
  · intro e code reason he hd
    have h1 := swift_get_err hkey he h
    simp only [hd] at h1
    exact ⟨h1, by simp only [Swift.getOr, h1]⟩
  · intro e he hd
    have h1 := swift_get_err hkey he h
    simp only [hd] at h1
    exact ⟨h1, by simp only [Swift.getOr, h1]⟩
  · intro hp
    have h1 : (Swift.get s h k t).1 = .crash := by
      unfold Swift.get
      rw [(C52_partial k).2 hkey]
      simp only [hp, Ffi.getRet]
    exact ⟨h1, by simp only [Swift.getOr, h1]⟩

/-- **C86 is false of this program**: a stored empty array crashes the reader, default or not. -/
theorem C86_refuted {codecs : ι → Codec} {i : ι} {page : Nat} {file : Bytes} {u : Nat} {q : Option Nat}
    {s0 s : Inst ι} {S0 : Store} {es : List (Ev ι)} {rs : List (Out Unit)}
    (hopen : openAt codecs i page file u q = some s0) (h0 : s0.Shows S0)
    (hrun : run codecs s0 es = some (s, rs)) (hok : ∀ r ∈ rs, r = .ok ()) (hidle : s.phase = .idle)
    (k : String) (hkey : '\x00' ∉ k.toList) (t : Ty) (v d : t.Val) (hempty : noElements t v = true)
    (hv : (S0.run (calls es)) k = some ⟨t.token, toBytes t v⟩) (h : Ffi.Heap) :
    (Swift.get s h k t).1 = .crash ∧ Swift.getOr s h k t d = .crash := by
  have hs := C01_latest_write_wins hopen h0 hrun hok hidle t.Val k t.token (fromBytes t)
  have hg : s.get k t = Store.lookup (S0.run (calls es)) k t.token (fromBytes t) := hs
  have : s.get k t = .ok v := by rw [hg]; simp [Store.lookup, hv, fromBytes_toBytes]
  have h1 := swift_get hkey this h
  rw [hempty] at h1
  exact ⟨h1, by simp only [Swift.getOr, h1]; rfl⟩

/-! ### C43: 32-bit targets -/

/-- **C43 is false of this program**: where a `usize` does not have 8 bytes, opening panics - for every page size, every
file, every codec; on a new directory too. -/
theorem C43_refuted (codecs : ι → Codec) (i : ι) (page : Nat) (file : Bytes) (u : Nat) (hu : u ≠ 8) (q : Option Nat) :
    openAt codecs i page file u q = none := by
  have : ∀ s : WState, s.usizeBytes = u → s.writeOffset = none := by
    intro s hs
    unfold WState.writeOffset
    split
    · rfl
    · rw [hs, if_pos (show u ≠ WState.lenOffset from hu)]
  unfold openAt openStore
  simp only
  split
  · rfl
  · rename_i o ho
    split at ho
    · cases ho
    · split at ho
      · cases ho
      · rename_i items hitems
        unfold WState.readItems at hitems
        rw [this _ rfl] at hitems
        cases hitems

/-- **C43**, what is true: with 8-byte `usize` a new directory opens.  Missing: every other target (`C43_refuted`). -/
theorem C43_partial (codecs : ι → Codec) (i : ι) (page : Nat) (hp : 8 ≤ page) : ∃ s, openAt codecs i page [] 8 = some s :=
  (C01_fresh (codecs := codecs) (i := i) hp []).imp fun _ h => h.1

/-! ### C37 through the bindings -/

/-- **C37**, Kotlin: exactly the codes 0..5 are accepted, anything else is a `NativeException`; a C caller's
`set_log_level` aborts there. -/
theorem C37_bindings (code : Int) :
    ((∃ l : LogLevel, l.code = code) → ∃ l : LogLevel, l.code = code ∧ Kotlin.setLogLevel code = .value l ∧ cSetLogLevel code = some l) ∧
    ((¬ ∃ l : LogLevel, l.code = code) → Kotlin.setLogLevel code = .native ∧ cSetLogLevel code = none) := by
  constructor
  · rintro ⟨l, rfl⟩
    refine ⟨l, rfl, ?_⟩
    simp only [Kotlin.setLogLevel, cSetLogLevel, Log.C37_codes.1 l]
    first | exact ⟨trivial, trivial⟩ | (refine ⟨?_, ?_⟩ <;> first | rfl | trivial)
  · intro h
    have : LogLevel.ofCode code = none := by
      unfold LogLevel.ofCode
      repeat' split
      all_goals first | rfl | (exfalso; apply h; exact ⟨_, Eq.symm (by assumption)⟩)
    unfold Kotlin.setLogLevel cSetLogLevel
    rw [this]
    exact ⟨rfl, rfl⟩


/-! ### Cases that meet the hypotheses -/

/-- The calls of a Swift or Kotlin caller: key `"ab"` with an empty `i32` array, then nothing else. -/
def swiftDemo : List (Ev Unit) := [.put "ab" Ty.i32Array.token (toBytes .i32Array []), .api (), .api (), .io idOrder, .io idOrder, .io idOrder]

example : ∃ s0 s rs, Swift.put (ι := Unit) "ab" .i32Array [] = some (.put "ab" Ty.i32Array.token (toBytes .i32Array [])) ∧
    noElements .i32Array [] = true ∧ openAt plain () 64 [] = some s0 ∧
    run plain s0 ([] ++ [.put "ab" Ty.i32Array.token (toBytes .i32Array [])] ++ swiftDemo.tail) = some (s, rs) ∧
    (∀ r ∈ rs, r = .ok ()) ∧ s.phase = .idle ∧ rs.length = 1 ∧ calls swiftDemo.tail = [] := by
  have h : passes (fresh64 ([] ++ [.put "ab" Ty.i32Array.token (toBytes .i32Array [])] ++ swiftDemo.tail))
    (fun s rs => decide ((∀ r ∈ rs, r = .ok ()) ∧ s.phase = .idle ∧ rs.length = 1)) = true := by decide +kernel
  obtain ⟨s0, s, rs, h0, h1, h2⟩ := exists_of_fresh64 h
  simp only [decide_eq_true_eq] at h2
  refine ⟨s0, s, rs, ?_, rfl, h0, h1, h2.1, h2.2.1, h2.2.2, rfl⟩
  simp only [Swift.put, (C52_partial "ab").2 (by decide), Swift.arg]

/-- The key `"a\0b"` arrives as `"a"`. -/
example : ∃ s0 s rs, Swift.put (ι := Unit) ("a" ++ "\x00" ++ "b") .bool true = some (.put "a" Ty.bool.token (toBytes .bool true)) ∧
    '\x00' ∉ "a".toList ∧ openAt plain () 64 [] = some s0 ∧
    run plain s0 ([] ++ [.put "a" Ty.bool.token (toBytes .bool true)] ++ swiftDemo.tail) = some (s, rs) ∧
    (∀ r ∈ rs, r = .ok ()) ∧ s.phase = .idle ∧ rs.length = 1 := by
  have h : passes (fresh64 ([] ++ [.put "a" Ty.bool.token (toBytes .bool true)] ++ swiftDemo.tail))
    (fun s rs => decide ((∀ r ∈ rs, r = .ok ()) ∧ s.phase = .idle ∧ rs.length = 1)) = true := by decide +kernel
  obtain ⟨s0, s, rs, h0, h1, h2⟩ := exists_of_fresh64 h
  simp only [decide_eq_true_eq] at h2
  refine ⟨s0, s, rs, ?_, by decide, h0, h1, h2.1, h2.2.1, h2.2.2⟩
  have : cArg ("a" ++ "\x00" ++ "b") = .ok "a" := by rw [C52_cut_at_nul]; decide +kernel
  simp only [Swift.put, this, Swift.arg]

/-- Swift, non-empty arrays: the copied array, and the empty one that is not. -/
example : Swift.readArray [1#32, 2#32] = some [1#32, 2#32] ∧ Swift.readArray ([] : List (BitVec 32)) = none := by decide

/-- C86: after `put("ab", "x")` through Swift: read as a string, as an integer, and another key. -/
example : ∃ s0 s rs, openAt plain () 64 [] = some s0 ∧ s0.Shows Store.empty ∧
    run plain s0 (.put "ab" Ty.str.token (toBytes .str "x") :: swiftDemo.tail) = some (s, rs) ∧ (∀ r ∈ rs, r = .ok ()) ∧
    s.phase = .idle ∧ rs.length = 1 ∧ '\x00' ∉ "ab".toList ∧
    (Store.empty.run (calls (.put "ab" Ty.str.token (toBytes .str "x") :: swiftDemo.tail : List (Ev Unit)))) "ab" =
      some ⟨Ty.str.token, toBytes .str "x"⟩ ∧
    (Store.empty.run (calls (.put "ab" Ty.str.token (toBytes .str "x") :: swiftDemo.tail : List (Ev Unit)))) "c" = none ∧
    Ty.str.token ≠ Ty.i32.token ∧ noElements .str "x" = false := by
  have h : passes (fresh64 (.put "ab" Ty.str.token (toBytes .str "x") :: swiftDemo.tail))
    (fun s rs => decide ((∀ r ∈ rs, r = .ok ()) ∧ s.phase = .idle ∧ rs.length = 1)) = true := by decide +kernel
  obtain ⟨s0, s, rs, h0, h1, h2⟩ := exists_of_fresh64 h
  simp only [decide_eq_true_eq] at h2
  obtain ⟨s1, hs1, hsh⟩ := C01_fresh (codecs := plain) (i := ()) (page := 64) (by decide) []
  rw [h0] at hs1
  injection hs1 with hs1
  subst hs1
  exact ⟨s0, s, rs, h0, hsh.1, h1, h2.1, h2.2.1, h2.2.2, by decide, rfl, rfl, by decide, rfl⟩

/-- Kotlin: signed bytes come back signed, empty arrays too. -/
example : (show List UInt8 from Kotlin.toNative .byteArray ([-1, 127, -128] : List Int8)) = [255, 127, 128] ∧
    (show List Int8 from Kotlin.ofNative .byteArray ([255, 127, 128] : List UInt8)) = [-1, 127, -128] ∧
    (show List (BitVec 64) from Kotlin.ofNative .i64Array ([] : List (BitVec 64))) = [] := by decide +kernel

/-- Entries written at their types, and one that is not. -/
example : Spec.Entry.Typed ⟨Ty.str.token, toBytes .str "x"⟩ ∧ ¬ Spec.Entry.Typed ⟨Ty.i32.token, [1]⟩ := by
  constructor
  · intro t ht
    cases t <;> first | exact ⟨"x", rfl⟩ | (exfalso; revert ht; decide)
  · intro h
    obtain ⟨v, hv⟩ := h .i32 rfl
    have := congrArg List.length hv
    simp [toBytes, num32ToBytes] at this

/-- **C43**, an 8-byte target with a new file. -/
example : ∃ s, openAt plain () 64 [] 8 = some s := C43_partial plain () 64 (by decide)

end Mmkv
