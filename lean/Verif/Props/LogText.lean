import Std.Data.String.ToNat
import Std.Data.String.ToInt
import Verif.Model.LogText
import Verif.Props.Ffi
/-!
# C103: what the log gives away
-/

namespace Mmkv.LogText
open Ffi

/-! ### What a user has in mind -/

/-- The number is not a NaN, by its bits. -/
def Num32 (b : BitVec 32) : Prop := b.toNat % 2 ^ 31 ≤ 0x7f800000

/-- The number is not a NaN, by its bits. -/
def Num64 (b : BitVec 64) : Prop := b.toNat % 2 ^ 63 ≤ 0x7ff0000000000000

/-- No NaN in the value. -/
def NoNan : (t : Ty) → t.Val → Prop
  | .f32, v => Num32 v
  | .f64, v => Num64 v
  | .f32Array, v => ∀ b, List.Mem b v → Num32 b
  | .f64Array, v => ∀ b, List.Mem b v → Num64 b
  | _, _ => True

/-- How many bytes the value has. -/
def size : (t : Ty) → t.Val → Nat
  | .i32, _ | .f32, _ => 4
  | .i64, _ | .f64, _ => 8
  | .bool, _ => 1
  | .str, v => (strBytes v).length
  | .byteArray, v => List.length v
  | .i32Array, v | .f32Array, v => 4 * List.length v
  | .i64Array, v | .f64Array, v => 8 * List.length v

/-- Text of numbers: not empty, no comma, no bracket. -/
def Plain (s : String) : Prop := s.toList ≠ [] ∧ ',' ∉ s.toList ∧ ']' ∉ s.toList

/-- What is known of Rust's way to print floats: two that are not NaNs are printed alike only if they are the same (the
shortest text that is read back as this number), and it takes digits, signs, dots and letters. -/
structure Readable (fmt : Fmt) : Prop where
  f32 : ∀ x y, Num32 x → Num32 y → fmt.f32 x = fmt.f32 y → x = y
  f64 : ∀ x y, Num64 x → Num64 y → fmt.f64 x = fmt.f64 y → x = y
  plain32 : ∀ x, Plain (fmt.f32 x)
  plain64 : ∀ x, Plain (fmt.f64 x)

/-- Reading a key with `get_…`, with what the store finds, and giving the result back with `free_buffer`: what gets to the
log at a level. -/
def lookAndFree (fmt : Fmt) (level : Int) (h : Heap) (key : String) (t : Ty) (r : Out t.Val) : List Msg :=
  atLevel level (getText fmt h key t r ++
    match getRet h t r with
    | .ok h' p => freeText fmt h' p
    | .abort => [])

/-- The same for a key with a value. -/
def readAndFree (fmt : Fmt) (level : Int) (h : Heap) (key : String) (t : Ty) (v : t.Val) : List Msg :=
  lookAndFree fmt level h key t (.ok v)

/-! ### Proofs -/

theorem decimal_inj {a b : Int} (h : decimal a = decimal b) : a = b := by
  have h1 := Int.toInt?_repr a
  have h2 := Int.toInt?_repr b
  simp only [decimal] at h
  rw [h, h2] at h1
  exact (Option.some.inj h1).symm

theorem plain_repr (n : Nat) : Plain n.repr := by
  refine ⟨by rw [Nat.toList_repr]; exact Nat.toDigits_ne_nil, ?_, ?_⟩ <;>
  · rw [Nat.toList_repr]
    intro hc
    exact absurd (Nat.isDigit_of_mem_toDigits (by decide) (by decide) hc) (by decide)

theorem plain_decimal (a : Int) : Plain (decimal a) := by
  unfold decimal
  rw [Int.repr_eq_if]
  split
  · exact plain_repr _
  · obtain ⟨h1, h2, h3⟩ := plain_repr (-a).toNat
    refine ⟨by simp, ?_, ?_⟩ <;>
    · rw [String.toList_append, List.mem_append]
      rintro (h | h)
      · revert h; decide
      · contradiction

/-- What comes before the first of a character is determined. -/
theorem cut_unique {c : Char} {a b x y : List Char} (ha : c ∉ a) (hb : c ∉ b) (h : a ++ c :: x = b ++ c :: y) : a = b ∧ x = y := by
  induction a generalizing b with
  | nil =>
    cases b with
    | nil => simpa using h
    | cons d b => simp only [List.nil_append, List.cons_append, List.cons.injEq] at h; exact absurd (by simp [h.1]) hb
  | cons d a ih =>
    cases b with
    | nil => simp only [List.nil_append, List.cons_append, List.cons.injEq] at h; exact absurd (by simp [h.1]) ha
    | cons e b =>
      simp only [List.cons_append, List.cons.injEq] at h
      obtain ⟨r1, r2⟩ := ih (fun hc => ha (List.mem_cons_of_mem _ hc)) (fun hc => hb (List.mem_cons_of_mem _ hc)) h.2
      exact ⟨by rw [h.1, r1], r2⟩

/-- The part of a slice's text after its first element, without the closing bracket. -/
def tailInit : List String → List Char
  | [] => []
  | x :: xs => ',' :: ' ' :: (x.toList ++ tailInit xs)

theorem tailText_toList (xs : List String) : (tailText xs).toList = tailInit xs ++ [']'] := by
  induction xs with
  | nil => rfl
  | cons x xs ih => simp [tailText, tailInit, ih]

theorem tailInit_no (xs : List String) (hp : ∀ x ∈ xs, Plain x) : ']' ∉ tailInit xs := by
  induction xs with
  | nil => simp [tailInit]
  | cons x xs ih => simp [tailInit, (hp x (by simp)).2.2, ih fun y hy => hp y (by simp [hy])]

theorem tailInit_inj {xs ys : List String} (hx : ∀ x ∈ xs, Plain x) (hy : ∀ y ∈ ys, Plain y) (h : tailInit xs = tailInit ys) : xs = ys := by
  induction xs generalizing ys with
  | nil => cases ys with
    | nil => rfl
    | cons y ys => simp [tailInit] at h
  | cons x xs ih =>
    cases ys with
    | nil => simp [tailInit] at h
    | cons y ys =>
      simp only [tailInit, List.cons.injEq, true_and] at h
      have e : x.toList ++ tailInit xs ++ [','] = y.toList ++ tailInit ys ++ [','] := by rw [h]
      have form : ∀ zs : List String, ∃ r, tailInit zs ++ [','] = ',' :: r := fun zs => by
        cases zs with
        | nil => exact ⟨[], rfl⟩
        | cons z zs => exact ⟨_, rfl⟩
      obtain ⟨r1, h1⟩ := form xs
      obtain ⟨r2, h2⟩ := form ys
      rw [List.append_assoc, List.append_assoc, h1, h2] at e
      obtain ⟨hxy, hr⟩ := cut_unique (hx x (by simp)).2.1 (hy y (by simp)).2.1 e
      have ht : tailInit xs = tailInit ys := by
        have : tailInit xs ++ [','] = tailInit ys ++ [','] := by rw [h1, h2, hr]
        exact List.append_cancel_right this
      rw [String.toList_inj.1 hxy, ih (fun z hz => hx z (by simp [hz])) (fun z hz => hy z (by simp [hz])) ht]

/-- A slice's text without the closing bracket. -/
def sliceInit : List String → List Char
  | [] => ['[']
  | x :: xs => '[' :: (x.toList ++ tailInit xs)

theorem sliceText_toList (xs : List String) : (sliceText xs).toList = sliceInit xs ++ [']'] := by
  cases xs with
  | nil => rfl
  | cons x xs => simp [sliceText, sliceInit, tailText_toList]

theorem sliceInit_no (xs : List String) (hp : ∀ x ∈ xs, Plain x) : ']' ∉ sliceInit xs := by
  cases xs with
  | nil => simp [sliceInit]
  | cons x xs => simp [sliceInit, (hp x (by simp)).2.2, tailInit_no xs fun y hy => hp y (by simp [hy])]

theorem sliceText_inj {xs ys : List String} (hx : ∀ x ∈ xs, Plain x) (hy : ∀ y ∈ ys, Plain y) (h : sliceText xs = sliceText ys) :
    xs = ys := by
  have h := congrArg String.toList h
  rw [sliceText_toList, sliceText_toList] at h
  have h := List.append_cancel_right h
  cases xs with
  | nil =>
    cases ys with
    | nil => rfl
    | cons y ys =>
      simp only [sliceInit, List.cons.injEq, true_and] at h
      exact absurd (List.append_eq_nil_iff.1 h.symm).1 (hy y (by simp)).1
  | cons x xs =>
    cases ys with
    | nil =>
      simp only [sliceInit, List.cons.injEq, true_and] at h
      exact absurd (List.append_eq_nil_iff.1 h).1 (hx x (by simp)).1
    | cons y ys =>
      refine tailInit_inj hx hy ?_
      simp only [sliceInit, List.cons.injEq, true_and] at h
      simp only [tailInit, h]

theorem map_inj_on {α β : Type} {f : α → β} {xs ys : List α} (hf : ∀ a ∈ xs, ∀ b ∈ ys, f a = f b → a = b) (h : xs.map f = ys.map f) : xs = ys := by
  induction xs generalizing ys with
  | nil => cases ys with
    | nil => rfl
    | cons => simp at h
  | cons x xs ih => cases ys with
    | nil => simp at h
    | cons y ys =>
      simp only [List.map_cons, List.cons.injEq] at h
      rw [hf x (by simp) y (by simp) h.1, ih (fun a ha b hb => hf a (by simp [ha]) b (by simp [hb])) h.2]

theorem slice_map_inj {α : Type} {f : α → String} {xs ys : List α} (hp : ∀ a, Plain (f a))
    (hf : ∀ a ∈ xs, ∀ b ∈ ys, f a = f b → a = b) (h : sliceText (xs.map f) = sliceText (ys.map f)) : xs = ys :=
  map_inj_on hf (sliceText_inj (by simp [hp]) (by simp [hp]) h)

/-- The text tells which value it is. -/
theorem valText_inj {fmt : Fmt} (hf : Readable fmt) {t : Ty} (ht : t ≠ .str) {v v' : t.Val} (hv : NoNan t v) (hv' : NoNan t v')
    (h : valText fmt t v = valText fmt t v') : v = v' := by
  cases t with
  | str => exact absurd rfl ht
  | i32 => exact BitVec.toInt_inj.1 (decimal_inj h)
  | i64 => exact BitVec.toInt_inj.1 (decimal_inj h)
  | bool => revert v v'; show ∀ v v' : Bool, _; intro v v' _ _ h; cases v <;> cases v' <;> first | rfl | exact absurd h (by simp [valText])
  | f32 => exact hf.f32 _ _ hv hv' h
  | f64 => exact hf.f64 _ _ hv hv' h
  | byteArray =>
    exact slice_map_inj (fun _ => plain_decimal _) (fun a _ b _ e => UInt8.toNat_inj.1 (Int.ofNat.inj (decimal_inj e))) h
  | i32Array => exact slice_map_inj (fun _ => plain_decimal _) (fun a _ b _ e => BitVec.toInt_inj.1 (decimal_inj e)) h
  | i64Array => exact slice_map_inj (fun _ => plain_decimal _) (fun a _ b _ e => BitVec.toInt_inj.1 (decimal_inj e)) h
  | f32Array => exact slice_map_inj hf.plain32 (fun a ha b hb e => hf.f32 _ _ (hv a ha) (hv' b hb) e) h
  | f64Array => exact slice_map_inj hf.plain64 (fun a ha b hb e => hf.f64 _ _ (hv a ha) (hv' b hb) e) h

/-- The text of a value, up to a character that is not in it and that follows it in a message or ends it. -/
theorem valText_cut {fmt : Fmt} (hf : Readable fmt) {t : Ty} (ht : t ≠ .str) :
    ∃ c : Char, ∃ e : List Char, ∀ v : t.Val, ∃ w, c ∉ w ∧ (valText fmt t v).toList ++ [',', ' '] = w ++ c :: e ∧
      ∀ r, (valText fmt t v).toList ++ (',' :: ' ' :: r) = w ++ c :: (e ++ r) := by
  have scalar : (∀ v, ',' ∉ (valText fmt t v).toList) → ∃ c : Char, ∃ e : List Char, ∀ v : t.Val, ∃ w, c ∉ w ∧
      (valText fmt t v).toList ++ [',', ' '] = w ++ c :: e ∧ ∀ r, (valText fmt t v).toList ++ (',' :: ' ' :: r) = w ++ c :: (e ++ r) :=
    fun hc => ⟨',', [' '], fun v => ⟨_, hc v, rfl, fun r => rfl⟩⟩
  have slice : (∀ v, ∃ xs : List String, valText fmt t v = sliceText xs ∧ ∀ x ∈ xs, Plain x) → ∃ c : Char, ∃ e : List Char, ∀ v : t.Val, ∃ w, c ∉ w ∧
      (valText fmt t v).toList ++ [',', ' '] = w ++ c :: e ∧ ∀ r, (valText fmt t v).toList ++ (',' :: ' ' :: r) = w ++ c :: (e ++ r) :=
    fun hc => ⟨']', [',', ' '], fun v => by
      obtain ⟨xs, hx, hp⟩ := hc v
      exact ⟨sliceInit xs, sliceInit_no xs hp, by rw [hx, sliceText_toList]; simp, fun r => by rw [hx, sliceText_toList]; simp⟩⟩
  cases t with
  | str => exact absurd rfl ht
  | i32 => exact scalar fun v => (plain_decimal _).2.1
  | i64 => exact scalar fun v => (plain_decimal _).2.1
  | bool => exact scalar fun v => by revert v; show ∀ v : Bool, _; intro v; cases v <;> simp [valText]
  | f32 => exact scalar fun v => (hf.plain32 _).2.1
  | f64 => exact scalar fun v => (hf.plain64 _).2.1
  | byteArray => exact slice fun v => ⟨_, rfl, by intro x hx; obtain ⟨b, _, rfl⟩ := List.mem_map.1 hx; exact plain_decimal _⟩
  | i32Array => exact slice fun v => ⟨_, rfl, by intro x hx; obtain ⟨b, _, rfl⟩ := List.mem_map.1 hx; exact plain_decimal _⟩
  | i64Array => exact slice fun v => ⟨_, rfl, by intro x hx; obtain ⟨b, _, rfl⟩ := List.mem_map.1 hx; exact plain_decimal _⟩
  | f32Array => exact slice fun v => ⟨_, rfl, by intro x hx; obtain ⟨b, _, rfl⟩ := List.mem_map.1 hx; exact hf.plain32 _⟩
  | f64Array => exact slice fun v => ⟨_, rfl, by intro x hx; obtain ⟨b, _, rfl⟩ := List.mem_map.1 hx; exact hf.plain64 _⟩

/-- A message with the text of a value in it tells the text. -/
theorem msg_text {fmt : Fmt} (hf : Readable fmt) {t : Ty} (ht : t ≠ .str) {v v' : t.Val} {pre s s' : String}
    (h : pre ++ valText fmt t v ++ ", ptr: " ++ s = pre ++ valText fmt t v' ++ ", ptr: " ++ s') : valText fmt t v = valText fmt t v' := by
  obtain ⟨c, e, hc⟩ := valText_cut hf ht
  obtain ⟨w, hw, h1, h2⟩ := hc v
  obtain ⟨w', hw', h1', h2'⟩ := hc v'
  have h := congrArg String.toList h
  have hp : (", ptr: ").toList = ',' :: ' ' :: ("ptr: ").toList := by decide
  simp only [String.toList_append, List.append_assoc, hp, List.cons_append] at h
  have h := List.append_cancel_left h
  rw [h2, h2'] at h
  have := (cut_unique hw hw' h).1
  subst this
  exact String.toList_inj.1 (List.append_cancel_right (h1.trans h1'.symm))

theorem atLevel_five (l : List Msg) : atLevel 5 l = l := by
  refine List.filter_eq_self.2 fun m _ => ?_
  cases m.1 <;> decide

/-- Where in the messages of a `get_…` the value is. -/
theorem getText_at {fmt : Fmt} {t : Ty} (ht : t ≠ .str) : ∃ n, n < 2 ∧ ∀ (h : Heap) (key : String) (v : t.Val),
    ∃ p, (getText fmt h key t (.ok v))[n]? = some (leakMsg fmt (valText fmt t v) p) := by
  cases t with
  | str => exact absurd rfl ht
  | i32 | i64 | bool | f32 | f64 => exact ⟨1, by decide, fun h key v => ⟨_, rfl⟩⟩
  | byteArray | i32Array | i64Array | f32Array | f64Array => exact ⟨0, by decide, fun h key v => ⟨_, rfl⟩⟩

theorem levels_get (fmt : Fmt) (h : Heap) (key : String) (t : Ty) (r : Out t.Val) :
    (getText fmt h key t r).map Prod.fst = CLog.getLog t r := by
  cases r with
  | panic => rfl
  | ok v => cases t <;> rfl
  | err e => cases e <;> rfl

theorem levels_put (fmt : Fmt) (h : Heap) (key : String) (t : Ty) (r : Out Unit) :
    (putText fmt h key t r).map Prod.fst = CLog.unitLog r := by
  cases r with
  | panic => rfl
  | ok v => cases t <;> rfl
  | err e => cases e <;> rfl

theorem levels_delete (fmt : Fmt) (h : Heap) (key : String) (r : Out Unit) : (deleteText fmt h key r).map Prod.fst = CLog.unitLog r := by
  cases r with
  | panic => rfl
  | ok v => rfl
  | err e => cases e <;> rfl

theorem levels_free (fmt : Fmt) (h : Heap) (p : Ptr) : (freeText fmt h p).map Prod.fst = CLog.freeLog h p := by
  have h1 : ∀ d t, (dropDataText fmt h d t).map Prod.fst = CLog.dropDataLog d t := by
    intro d t
    unfold dropDataText CLog.dropDataLog
    split
    · rfl
    · cases t <;> first | rfl | (dsimp only; split <;> rfl)
  have h2 : ∀ e, (dropErrorText fmt h e).map Prod.fst = CLog.dropErrorLog h e := by
    intro e
    unfold dropErrorText CLog.dropErrorLog
    split
    · rfl
    · cases h.read e with
      | none => rfl
      | some c => cases c with
        | internalError code r =>
          dsimp only
          split
          · rfl
          · split <;> rfl
        | _ => rfl
  unfold freeText CLog.freeLog
  cases h.read p with
  | none => rfl
  | some c => cases c with
    | rawBuffer d t e =>
      dsimp only
      rw [List.cons_append, List.map_cons, List.map_append, h1, h2]
      rfl
    | _ => rfl

theorem getLog_verbose {t : Ty} (v : t.Val) : ∀ l ∈ CLog.getLog t (.ok v), l = .verbose := by
  cases t <;> simp [CLog.getLog, CLog.dataLog, CLog.leakLog]

theorem freeLog_verbose (h : Heap) (p : Ptr) : ∀ l ∈ CLog.freeLog h p, l = .verbose := by
  intro l hl
  unfold CLog.freeLog at hl
  split at hl
  · rename_i d t e _
    simp only [List.mem_append] at hl
    rcases hl with (hl | hl) | hl
    · simp [CLog.releaseLog] at hl; exact hl
    · unfold CLog.dropDataLog at hl
      split at hl
      · simp at hl
      · cases t <;> simpa [CLog.releaseLog] using hl
    · unfold CLog.dropErrorLog at hl
      split at hl
      · simp at hl
      · split at hl
        · simp only [List.mem_append] at hl
          rcases hl with hl | hl
          · simpa [CLog.releaseLog] using hl
          · split at hl <;> simp [CLog.releaseLog] at hl; exact hl
        · simp at hl
  · simp at hl

theorem alloc_same {h : Heap} {l : Layout} {c c' : Cell} :
    (h.alloc l c).2 = (h.alloc l c').2 ∧ (h.alloc l c).1.next = (h.alloc l c').1.next := by
  unfold Heap.alloc
  split <;> exact ⟨rfl, rfl⟩

theorem alloc_next {h h' : Heap} {l : Layout} {c c' : Cell} (hn : h.next = h'.next) :
    (h.alloc l c).2 = (h'.alloc l c').2 ∧ (h.alloc l c).1.next = (h'.alloc l c').1.next := by
  unfold Heap.alloc
  split
  · exact ⟨rfl, hn⟩
  · exact ⟨by rw [hn], by simp [hn]⟩

theorem leakSlice_next {h : Heap} {s s' : String} (hl : (strBytes s).length = (strBytes s').length) :
    (leakSlice h s).2 = (leakSlice h s').2 ∧ (leakSlice h s).1.next = (leakSlice h s').1.next := by
  simp only [leakSlice, hl]
  exact alloc_next (alloc_next rfl).2

/-! ### The claims -/

/-- **C103, refuted.** At the level a program starts with, the log of a `get_…` tells which value was found: for every type
but strings, two reads (of whatever keys, on whatever heaps) that leave the same messages found the same value.  So the
value itself, not only its type and size, is in the log. -/
theorem C103_given_away {fmt : Fmt} (hf : Readable fmt) {t : Ty} (ht : t ≠ .str) {h h' : Heap} {key key' : String} {v v' : t.Val}
    (hv : NoNan t v) (hv' : NoNan t v')
    (e : atLevel 5 (getText fmt h key t (.ok v)) = atLevel 5 (getText fmt h' key' t (.ok v'))) : v = v' := by
  rw [atLevel_five, atLevel_five] at e
  obtain ⟨n, _, hn⟩ := getText_at (fmt := fmt) ht
  obtain ⟨p, hp⟩ := hn h key v
  obtain ⟨p', hp'⟩ := hn h' key' v'
  rw [e, hp', Option.some.injEq] at hp
  refine valText_inj hf ht hv hv' (msg_text hf ht (pre := "leak ") (s := fmt.ptr p) (s' := fmt.ptr p') ?_)
  exact (congrArg Prod.snd hp).symm

/-- **C103, refuted.** There are values of the same type and size for which a C program that reads a key and frees the result
leaves different logs, whatever the key, the heap and the way floats and pointers are printed. -/
theorem C103_refuted {fmt : Fmt} (hf : Readable fmt) (h : Heap) (key : String) {t : Ty} (ht : t ≠ .str) :
    ∃ v v' : t.Val, size t v = size t v' ∧ readAndFree fmt 5 h key t v ≠ readAndFree fmt 5 h key t v' := by
  have key_lemma : ∀ v v' : t.Val, NoNan t v → NoNan t v' → v ≠ v' → readAndFree fmt 5 h key t v ≠ readAndFree fmt 5 h key t v' := by
    intro v v' hv hv' hne he
    simp only [readAndFree, lookAndFree, atLevel_five] at he
    obtain ⟨n, hn2, hn⟩ := getText_at (fmt := fmt) ht
    obtain ⟨p, hp⟩ := hn h key v
    obtain ⟨p', hp'⟩ := hn h key v'
    have e := congrArg (fun l : List Msg => l[n]?) he
    have in1 := (List.getElem?_eq_some_iff.1 hp).1
    have in2 := (List.getElem?_eq_some_iff.1 hp').1
    simp only [List.getElem?_append_left in1, List.getElem?_append_left in2, hp, hp', Option.some.injEq] at e
    exact hne (valText_inj hf ht hv hv' (msg_text hf ht (pre := "leak ") (s := fmt.ptr p) (s' := fmt.ptr p') (congrArg Prod.snd e)))
  cases t with
  | str => exact absurd rfl ht
  | i32 | f32 => exact ⟨(0 : BitVec 32), (1 : BitVec 32), rfl, key_lemma _ _ (by simp [NoNan, Num32]) (by simp [NoNan, Num32]) (show (0 : BitVec 32) ≠ 1 by decide)⟩
  | i64 | f64 => exact ⟨(0 : BitVec 64), (1 : BitVec 64), rfl, key_lemma _ _ (by simp [NoNan, Num64]) (by simp [NoNan, Num64]) (show (0 : BitVec 64) ≠ 1 by decide)⟩
  | bool => exact ⟨false, true, rfl, key_lemma _ _ trivial trivial (show false ≠ true by decide)⟩
  | byteArray => exact ⟨([0] : List UInt8), ([1] : List UInt8), rfl, key_lemma _ _ trivial trivial (show ([0] : List UInt8) ≠ [1] by decide)⟩
  | i32Array => exact ⟨([0] : List (BitVec 32)), ([1] : List (BitVec 32)), rfl, key_lemma _ _ trivial trivial (show ([0] : List (BitVec 32)) ≠ [1] by decide)⟩
  | i64Array => exact ⟨([0] : List (BitVec 64)), ([1] : List (BitVec 64)), rfl, key_lemma _ _ trivial trivial (show ([0] : List (BitVec 64)) ≠ [1] by decide)⟩
  | f32Array =>
    refine ⟨([0] : List (BitVec 32)), ([1] : List (BitVec 32)), rfl, key_lemma _ _ ?_ ?_ (show ([0] : List (BitVec 32)) ≠ [1] by decide)⟩ <;>
    · intro b hb; cases hb with
      | head => simp [Num32]
      | tail _ h => cases h
  | f64Array =>
    refine ⟨([0] : List (BitVec 64)), ([1] : List (BitVec 64)), rfl, key_lemma _ _ ?_ ?_ (show ([0] : List (BitVec 64)) ≠ [1] by decide)⟩ <;>
    · intro b hb; cases hb with
      | head => simp [Num64]
      | tail _ h => cases h

/-- **C103, refuted.** Giving the result back prints the value once more. -/
theorem C103_given_away_again (fmt : Fmt) {t : Ty} (ht : t ≠ .str) {h h' : Heap} {v : t.Val} {p : Ptr}
    (hr : getRet h t (.ok v) = .ok h' p) :
    ∃ q, (LogLevel.verbose, "release " ++ valText fmt t v ++ ", ptr: " ++ fmt.ptr q) ∈ atLevel 5 (freeText fmt h' p) := by
  rw [atLevel_five]
  simp only [getRet] at hr
  generalize e1 : leakData h t v = r1 at hr
  obtain ⟨h1, d⟩ := r1
  simp only at hr
  generalize e2 : h1.alloc lRawBuffer (.rawBuffer d t .null) = r2 at hr
  obtain ⟨h2, p2⟩ := r2
  simp only [Ret.ok.injEq] at hr
  obtain ⟨rfl, rfl⟩ := hr
  obtain ⟨fq, hq, hf1, ho1⟩ := leakData_spec e1
  obtain ⟨fp, _, ho⟩ := buffer_spec hf1 e2 (D := fun g => readData g d t = some v)
    (fun g hg => ⟨⟨_, (ho1 g hg).2, by simp [dropError]⟩, (ho1 g hg).1⟩)
  obtain ⟨hrd, _, hD⟩ := ho h2 fun _ _ => rfl
  have hheld : heldText fmt h2 d t = valText fmt t v := by simp [heldText, hD]
  have inner : ∃ q, (LogLevel.verbose, "release " ++ valText fmt t v ++ ", ptr: " ++ fmt.ptr q) ∈ dropDataText fmt h2 d t := by
    unfold dropDataText
    rw [if_neg hq, hheld]
    have arr : ∀ {s : Ty} (f : Ptr × Nat → Option t.Val), (readArr h2 d s).bind f = some v →
        ∃ q, (LogLevel.verbose, "release " ++ valText fmt t v ++ ", ptr: " ++ fmt.ptr q) ∈
          (match h2.read d with
            | some (.typedArray a token len) =>
              [releaseMsg fmt (typedArrayText fmt a token len) d, releaseMsg fmt (valText fmt t v) a]
            | _ => [(LogLevel.verbose, ""), (LogLevel.verbose, "")]) := by
      intro s f hs
      obtain ⟨a, ha, _⟩ := Option.bind_eq_some_iff.1 hs
      unfold readArr at ha
      split at ha
      · rename_i a' token len hrr
        exact ⟨a', by rw [hrr]; simp [releaseMsg]⟩
      · simp at ha
    cases t with
    | str => exact absurd rfl ht
    | i32 | i64 | bool | f32 | f64 => exact ⟨d, by simp [releaseMsg]⟩
    | byteArray | i32Array | i64Array | f32Array | f64Array => exact arr _ hD
  obtain ⟨q, hm⟩ := inner
  refine ⟨q, ?_⟩
  rw [freeText, hrd]
  exact List.mem_append_left _ (List.mem_cons_of_mem _ hm)

/-- **C103, for strings.** What reading a string and freeing the result logs depends on its length at most, at every level. -/
theorem C103_partial_strings (fmt : Fmt) (level : Int) (h : Heap) (key : String) (s s' : String) (hl : size .str s = size .str s') :
    readAndFree fmt level h key .str s = readAndFree fmt level h key .str s' := by
  obtain ⟨hp, hn⟩ := leakSlice_next (h := h) hl
  have hp2 := (alloc_next (l := lRawBuffer) (c := .rawBuffer (leakSlice h s).2 .str .null) (c' := .rawBuffer (leakSlice h s').2 .str .null) hn).1
  have free : ∀ g : Heap, ∀ d : Ptr, freeText fmt (g.alloc lRawBuffer (.rawBuffer d .str .null)).1 (g.alloc lRawBuffer (.rawBuffer d .str .null)).2 =
      [releaseMsg fmt (rawBufferText fmt d .str .null) (g.alloc lRawBuffer (.rawBuffer d .str .null)).2] := by
    intro g d
    generalize e : g.alloc lRawBuffer (.rawBuffer d .str .null) = r
    obtain ⟨g', q⟩ := r
    obtain ⟨fp, hleaf, _⟩ := alloc_spec e
    have hr := leaf_read hleaf (by simp [lRawBuffer])
    simp [freeText, hr, dropDataText, dropErrorText]
  simp only [readAndFree, lookAndFree, getText, getRet, leakData, dataText, free, hp]
  rw [hp] at hp2
  simp only [hp2]

/-- **C103, with the level set.** With `set_log_level` at Debug or lower, calls that succeed log nothing at all, of no type. -/
theorem C103_partial_level (fmt : Fmt) (level : Int) (hl : level ≤ 4) (h : Heap) (key : String) (t : Ty) (v : t.Val) :
    readAndFree fmt level h key t v = [] := by
  have quiet : ∀ l : List Msg, (∀ x ∈ l.map Prod.fst, x = .verbose) → atLevel level l = [] := by
    intro l hv
    refine List.filter_eq_nil_iff.2 fun m hm => ?_
    rw [hv m.1 (List.mem_map_of_mem hm)]
    have hlt : level < LogLevel.verbose.code := by show level < 5; omega
    simp [hlt]
  refine quiet _ fun x hx => ?_
  rw [List.map_append, List.mem_append] at hx
  rcases hx with hx | hx
  · rw [levels_get] at hx
    exact getLog_verbose v x hx
  · split at hx
    · rw [levels_free] at hx
      exact freeLog_verbose _ _ x hx
    · simp at hx

/-! ### Concrete runs -/

/-- One way to print. -/
def fmt0 : Fmt where
  ptr p := match p with | .null => "0x0" | .dangling => "0x1" | .addr n => "0x" ++ (1000 + n).repr
  f32 b := decimal b.toNat
  f64 b := decimal b.toNat
  quoted s := "\"" ++ s ++ "\""

theorem fmt0_readable : Readable fmt0 where
  f32 _ _ _ _ h := BitVec.toNat_inj.1 (Int.ofNat.inj (decimal_inj h))
  f64 _ _ _ _ h := BitVec.toNat_inj.1 (Int.ofNat.inj (decimal_inj h))
  plain32 _ := plain_decimal _
  plain64 _ := plain_decimal _

/-- A pin read with `get_i32`, and the result freed: the log holds it twice. -/
example : readAndFree fmt0 5 {} "pin" .i32 (4711 : BitVec 32) =
    [(.verbose, "get i32 for key 'pin' success"), (.verbose, "leak 4711, ptr: 0x1000"),
     (.verbose, "leak RawBuffer { raw_data: 0x1000, type_token: I32, err: 0x0 }, ptr: 0x1001"),
     (.verbose, "release RawBuffer { raw_data: 0x1000, type_token: I32, err: 0x0 }, ptr: 0x1001"),
     (.verbose, "release 4711, ptr: 0x1000")] := by decide +kernel

/-- A key kept as a byte array. -/
example : readAndFree fmt0 5 {} "k" .byteArray ([222, 173] : List UInt8) =
    [(.verbose, "leak [222, 173], ptr: 0x1000"), (.verbose, "get byte array for key 'k' success"),
     (.verbose, "leak RawTypedArray { array: 0x1000, type_token: ByteArray, len: 2 }, ptr: 0x1001"),
     (.verbose, "leak RawBuffer { raw_data: 0x1001, type_token: ByteArray, err: 0x0 }, ptr: 0x1002"),
     (.verbose, "release RawBuffer { raw_data: 0x1001, type_token: ByteArray, err: 0x0 }, ptr: 0x1002"),
     (.verbose, "release RawTypedArray { array: 0x1000, type_token: ByteArray, len: 2 }, ptr: 0x1001"),
     (.verbose, "release [222, 173], ptr: 0x1000")] := by decide +kernel

/-- A string: nothing of it is in the log. -/
example : readAndFree fmt0 5 {} "name" .str "Alice" = readAndFree fmt0 5 {} "name" .str "Carol" ∧
    readAndFree fmt0 5 {} "name" .str "Alice" =
    [(.verbose, "get string for key 'name' success"),
     (.verbose, "leak RawBuffer { raw_data: 0x1001, type_token: Str, err: 0x0 }, ptr: 0x1002"),
     (.verbose, "release RawBuffer { raw_data: 0x1001, type_token: Str, err: 0x0 }, ptr: 0x1002")] := by decide +kernel

/-- A `put_…` that fails: the only message that is shown at the level Error. -/
example : atLevel 1 (putText fmt0 {} "pin" .i32 (.err .instanceClosed)) =
    [(.error, "failed to put i32 for key pin, reason InstanceClosed")] := by decide +kernel

end Mmkv.LogText
