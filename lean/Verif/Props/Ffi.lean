import Verif.Model.Ffi
import Verif.Lemmas.Bytes
/-!
# The C interface: C36
-/

namespace Mmkv.Ffi

/-! ### What a user has in mind -/

/-- What a C caller may be handed: the outcome of a `get` at a type, or of a `put` or `delete`. -/
inductive Outcome where
  | get (t : Ty) (r : Out t.Val)
  | done (t : Ty) (r : Out Unit)

/-- The type a result is tagged with. -/
def Outcome.ty : Outcome → Ty
  | .get t _ => t
  | .done t _ => t

/-- The documented code of an error, and the reason it carries (src/ffi/ffi_buffer.rs:200-214,
ios/MMKV/Sources/MMKV/MMKVError.swift). -/
def documented : Error → Option (Int × Option String)
  | .keyNotFound => some (0, none)
  | .decodeFailed r => some (1, some r)
  | .typeMissMatch => some (2, none)
  | .dataInvalid => some (3, none)
  | .instanceClosed => some (4, none)
  | .encodeFailed r => some (5, some r)
  | _ => none

/-- What the caller should find: the value, nothing, or the documented code with the reason. -/
def Outcome.shows : (o : Outcome) → Option (Seen o.ty)
  | .get _ (.ok v) => some (.value v)
  | .get _ (.err e) => (documented e).map fun d => .error d.1 (d.2.map strBytes)
  | .get _ .panic => none
  | .done _ (.ok ()) => some .nothing
  | .done _ (.err e) => (documented e).map fun d => .error d.1 (d.2.map strBytes)
  | .done _ .panic => none

/-- A C caller's doings: a call that came out in some way, or freeing one of the results it still holds. -/
inductive CEv where
  | call (o : Outcome)
  | free (i : Nat)

/-- The C function that returns the outcome. -/
def Outcome.ret (h : Heap) : Outcome → Ret
  | .get t r => getRet h t r
  | .done t r => unitRet h t r

/-- The caller's view: the heap, and the results it holds. -/
structure CState where
  heap : Heap := {}
  held : List (Ptr × Outcome) := []

/-- One step; `none`: the process aborted, or undefined behaviour. -/
def CState.step (s : CState) : CEv → Option CState
  | .call o =>
    match o.ret s.heap with
    | .ok h p => some { heap := h, held := s.held ++ [(p, o)] }
    | .abort => none
  | .free i =>
    match s.held[i]? with
    | none => some s
    | some (p, _) => (freeBuffer s.heap p).map fun h => { heap := h, held := s.held.eraseIdx i }

/-- A history. -/
def CState.run (s : CState) : List CEv → Option CState
  | [] => some s
  | e :: es => (s.step e).bind fun s => s.run es

/-! ### Proofs -/

/-- The block at an address. -/
def Heap.at_ (h : Heap) (n : Nat) : Option (Layout × Cell) := (h.blocks.find? fun b => b.1 == n).map fun b => b.2

/-- The heap without some blocks. -/
def Heap.minus (h : Heap) (fp : List Nat) : Heap := { h with blocks := h.blocks.filter fun b => !fp.contains b.1 }

theorem Heap.minus_nil (h : Heap) : h.minus [] = h := by
  have : (h.blocks.filter fun b => !([] : List Nat).contains b.1) = h.blocks := List.filter_eq_self.2 (by simp)
  simp only [Heap.minus, this]

theorem Heap.minus_minus (h : Heap) (a b : List Nat) : (h.minus a).minus b = h.minus (a ++ b) := by
  simp only [Heap.minus, List.filter_filter]
  congr 1
  apply List.filter_congr
  intro x _
  simp [Bool.and_comm]

theorem find_filter_other (l : List (Nat × Layout × Cell)) (fp : List Nat) (m : Nat) :
    (l.filter fun b => !fp.contains b.1).find? (fun b => b.1 == m) =
      if m ∈ fp then none else l.find? fun b => b.1 == m := by
  induction l with
  | nil => simp
  | cons b l ih =>
    by_cases hb : b.1 ∈ fp
    · have hb' : (!fp.contains b.1) = false := by simp [hb]
      simp only [List.filter_cons, hb', Bool.false_eq_true, if_false, ih, List.find?_cons]
      by_cases hm : m ∈ fp
      · simp [hm]
      · have : (b.1 == m) = false := by
          simp only [beq_eq_false_iff_ne]; rintro rfl; exact hm hb
        simp [hm, this]
    · have hb' : (!fp.contains b.1) = true := by simp [hb]
      simp only [List.filter_cons, hb', if_true, List.find?_cons, ih]
      by_cases he : b.1 = m
      · subst he; simp [hb]
      · have : (b.1 == m) = false := by simp [he]
        simp [this]

theorem Heap.at_minus (h : Heap) (fp : List Nat) (m : Nat) :
    (h.minus fp).at_ m = if m ∈ fp then none else h.at_ m := by
  unfold Heap.at_ Heap.minus
  simp only [find_filter_other]
  split <;> simp

theorem Heap.read_addr (h : Heap) (n : Nat) : h.read (.addr n) = (h.at_ n).map fun b => b.2 := by
  simp [Heap.read, Heap.at_]; rfl

theorem Heap.dealloc_addr {h : Heap} {n : Nat} {l : Layout} {c : Cell} (ha : h.at_ n = some (l, c)) (hl : l.size ≠ 0) :
    h.dealloc (.addr n) l = some (h.minus [n]) := by
  unfold Heap.at_ at ha
  cases hf : h.blocks.find? fun b => b.1 == n with
  | none => rw [hf] at ha; simp at ha
  | some b =>
    rw [hf] at ha
    simp only [Option.map_some, Option.some.injEq] at ha
    simp only [Heap.dealloc, hl, if_false, hf, ha, if_true]
    congr 1
    simp only [Heap.minus]
    congr 1
    apply List.filter_congr
    intro x _
    by_cases hx : x.1 = n <;> simp [hx]

/-- A pointer to an allocation of the given layout and contents; `fp` is the addresses it takes up. -/
def Leaf (g : Heap) (p : Ptr) (l : Layout) (c : Cell) (fp : List Nat) : Prop :=
  (l.size = 0 ∧ p = .dangling ∧ fp = []) ∨ (l.size ≠ 0 ∧ ∃ n, p = .addr n ∧ fp = [n] ∧ g.at_ n = some (l, c))

/-- Two heaps agree at some addresses. -/
def Agree (h g : Heap) (fp : List Nat) : Prop := ∀ m, m ∈ fp → g.at_ m = h.at_ m

theorem Leaf.frame {h g : Heap} {p l c fp} (hl : Leaf h p l c fp) (ha : Agree h g fp) : Leaf g p l c fp := by
  rcases hl with hl | ⟨hs, n, rfl, rfl, hn⟩
  · exact .inl hl
  · exact .inr ⟨hs, n, rfl, rfl, by rw [ha n (by simp), hn]⟩

theorem Leaf.dealloc {g : Heap} {p l c fp} (hl : Leaf g p l c fp) : g.dealloc p l = some (g.minus fp) := by
  rcases hl with ⟨hs, rfl, rfl⟩ | ⟨hs, n, rfl, rfl, hn⟩
  · simp [Heap.dealloc, hs, Heap.minus_nil]
  · exact Heap.dealloc_addr hn hs

theorem Leaf.ne_null {g : Heap} {p l c fp} (hl : Leaf g p l c fp) : p ≠ .null := by
  rcases hl with ⟨_, rfl, _⟩ | ⟨_, n, rfl, _⟩ <;> simp

/-- Allocating makes a leaf out of addresses never used, and changes nothing else. -/
structure Fresh (h h' : Heap) (fp : List Nat) : Prop where
  next : h.next ≤ h'.next
  range : ∀ m ∈ fp, h.next ≤ m ∧ m < h'.next
  other : ∀ m, m ∉ fp → h'.at_ m = h.at_ m

theorem Fresh.trans {a b c : Heap} {p q : List Nat} (h1 : Fresh a b p) (h2 : Fresh b c q) : Fresh a c (p ++ q) where
  next := Nat.le_trans h1.next h2.next
  range m hm := by
    rcases List.mem_append.1 hm with hm | hm
    · have := h1.range m hm; have := h2.next; omega
    · have := h2.range m hm; have := h1.next; omega
  other m hm := by
    rw [h2.other m (fun hq => hm (List.mem_append.2 (.inr hq))), h1.other m (fun hq => hm (List.mem_append.2 (.inl hq)))]

theorem Fresh.agree {b c : Heap} {q : List Nat} (h2 : Fresh b c q) {p : List Nat} (hp : ∀ m ∈ p, m < b.next) :
    Agree b c p := fun m hm => h2.other m fun hq => by have := h2.range m hq; have := hp m hm; omega

theorem alloc_spec {h h' : Heap} {l : Layout} {c : Cell} {p : Ptr} (he : h.alloc l c = (h', p)) :
    ∃ fp, Leaf h' p l c fp ∧ Fresh h h' fp := by
  unfold Heap.alloc at he
  by_cases hl : l.size = 0
  · simp only [hl, if_true] at he
    cases he
    exact ⟨[], .inl ⟨hl, rfl, rfl⟩, ⟨Nat.le_refl _, by simp, fun _ _ => rfl⟩⟩
  · simp only [hl, if_false] at he
    cases he
    refine ⟨[h.next], .inr ⟨hl, h.next, rfl, rfl, by simp [Heap.at_]⟩, ⟨Nat.le_succ _, by simp, ?_⟩⟩
    intro m hm
    have : (h.next == m) = false := by simp at hm; simp; omega
    simp [Heap.at_, this]

/-- An object on the heap, seen from every heap that agrees at its addresses. -/
def Owned (h : Heap) (fp : List Nat) (P : Heap → Prop) : Prop := ∀ g, Agree h g fp → P g

theorem Owned.frame {h g : Heap} {fp P} (ho : Owned h fp P) (ha : Agree h g fp) : Owned g fp P :=
  fun k hk => ho k fun m hm => by rw [hk m hm, ha m hm]

/-- Two-level objects: a struct that points to a leaf. -/
theorem two_level {h h1 h2 : Heap} {l1 l2 : Layout} {c1 : Cell} {p q : Ptr} {c2 : Cell}
    (e1 : h.alloc l1 c1 = (h1, q)) (e2 : h1.alloc l2 c2 = (h2, p)) (hs : l2.size ≠ 0) :
    ∃ fp n, p = .addr n ∧ Fresh h h2 fp ∧
      Owned h2 fp fun g => ∃ fq, Leaf g q l1 c1 fq ∧ n ∉ fq ∧ g.at_ n = some (l2, c2) ∧ fp = fq ++ [n] := by
  obtain ⟨fq, lq, rq⟩ := alloc_spec e1
  obtain ⟨fp, lp, rp⟩ := alloc_spec e2
  rcases lp with ⟨h0, _⟩ | ⟨_, n, rfl, rfl, hn⟩
  · exact absurd h0 hs
  · refine ⟨fq ++ [n], n, rfl, rq.trans rp, ?_⟩
    intro g hg
    have hnf : n ∉ fq := by
      intro hc
      have := rq.range n hc; have := rp.range n (by simp); omega
    refine ⟨fq, ?_, hnf, by rw [hg n (by simp), hn], rfl⟩
    apply lq.frame
    intro m hm
    rw [hg m (by simp [hm]), rp.agree (p := fq) (fun m hm => (rq.range m hm).2) m hm]

theorem free_two {g : Heap} {q : Ptr} {l1 l2 : Layout} {c1 c2 : Cell} {fq : List Nat} {n : Nat}
    (hq : Leaf g q l1 c1 fq) (hnf : n ∉ fq) (hn : g.at_ n = some (l2, c2)) (hs : l2.size ≠ 0) :
    ((g.dealloc q l1).bind fun h => h.dealloc (.addr n) l2) = some (g.minus (fq ++ [n])) := by
  rw [hq.dealloc, Option.bind_some, Heap.dealloc_addr (c := c2) (by rw [Heap.at_minus, if_neg hnf, hn]) hs,
    Heap.minus_minus]

theorem leakSlice_spec {h h' : Heap} {s : String} {p : Ptr} (he : leakSlice h s = (h', p)) :
    ∃ fp, p ≠ .null ∧ Fresh h h' fp ∧
      Owned h' fp fun g => readSlice g p = some (strBytes s) ∧ releaseSlice g p = some (g.minus fp) := by
  unfold leakSlice at he
  simp only at he
  generalize e1 : h.alloc (lBytes (strBytes s).length) (.bytes (strBytes s)) = r1 at he
  obtain ⟨h1, q⟩ := r1
  simp only at he
  obtain ⟨fp, n, rfl, hf, ho⟩ := two_level e1 he (by simp [lByteSlice])
  refine ⟨fp, by simp, hf, ?_⟩
  intro g hg
  obtain ⟨fq, hq, hnf, hn, rfl⟩ := ho g hg
  have hr : g.read (.addr n) = some (.byteSlice q (strBytes s).length) := by rw [Heap.read_addr, hn]; rfl
  constructor
  · simp only [readSlice, hr]
    rcases hq with ⟨h0, rfl, _⟩ | ⟨h0, k, rfl, rfl, hk⟩
    · have h0' : (strBytes s).length = 0 := h0
      simp [List.length_eq_zero_iff.1 h0']
    · have h0' : (strBytes s).length ≠ 0 := h0
      have : g.read (.addr k) = some (.bytes (strBytes s)) := by rw [Heap.read_addr, hk]; rfl
      simp only [h0', if_false, this, if_true]
  · simp only [releaseSlice, hr]
    exact free_two hq hnf hn (by simp [lByteSlice])

theorem leakArray_spec {h h' : Heap} {l : Layout} {c : Cell} {t : Ty} {len : Nat} {p : Ptr}
    (he : leakArray h l c t len = (h', p)) (hl : arrayLayout len t = some l) :
    ∃ fp, p ≠ .null ∧ Fresh h h' fp ∧
      Owned h' fp fun g => ∃ q fq, Leaf g q l c fq ∧ readArr g p t = some (q, len) ∧
        releaseArray g p = some (g.minus fp) := by
  unfold leakArray at he
  simp only at he
  generalize e1 : h.alloc l c = r1 at he
  obtain ⟨h1, q⟩ := r1
  simp only at he
  obtain ⟨fp, n, rfl, hf, ho⟩ := two_level e1 he (by simp [lTypedArray])
  refine ⟨fp, by simp, hf, ?_⟩
  intro g hg
  obtain ⟨fq, hq, hnf, hn, rfl⟩ := ho g hg
  have hr : g.read (.addr n) = some (.typedArray q t len) := by rw [Heap.read_addr, hn]; rfl
  refine ⟨q, fq, hq, ?_, ?_⟩
  · simp [readArr, hr]
  · simp only [releaseArray, hr, hl, Option.bind_some]
    exact free_two hq hnf hn (by simp [lTypedArray])

theorem leaf_read {g : Heap} {q : Ptr} {l : Layout} {c : Cell} {fq} (hq : Leaf g q l c fq) (h0 : l.size ≠ 0) :
    g.read q = some c := by
  rcases hq with ⟨hs, _⟩ | ⟨_, k, rfl, _, hk⟩
  · exact absurd hs h0
  · rw [Heap.read_addr, hk]; rfl

theorem leaf8 {g : Heap} {q : Ptr} {l : Bytes} {fq} (hq : Leaf g q (lBytes l.length) (.bytes l) fq) :
    read8s g q l.length = some l := by
  unfold read8s
  by_cases h0 : l.length = 0
  · simp [List.length_eq_zero_iff.1 h0]
  · simp [h0, leaf_read hq (by simpa [lBytes] using h0)]

theorem leaf32 {g : Heap} {q : Ptr} {l : List (BitVec 32)} {fq} (hq : Leaf g q (lArr32 l.length) (.arr32 l) fq) :
    read32s g q l.length = some l := by
  unfold read32s
  by_cases h0 : l.length = 0
  · simp [List.length_eq_zero_iff.1 h0]
  · simp [h0, leaf_read hq (by simp [lArr32]; omega)]

theorem leaf64 {g : Heap} {q : Ptr} {l : List (BitVec 64)} {fq} (hq : Leaf g q (lArr64 l.length) (.arr64 l) fq) :
    read64s g q l.length = some l := by
  unfold read64s
  by_cases h0 : l.length = 0
  · simp [List.length_eq_zero_iff.1 h0]
  · simp [h0, leaf_read hq (by simp [lArr64]; omega)]

theorem leafNum_spec {h h' : Heap} {l : Layout} {c : Cell} {p : Ptr} (he : h.alloc l c = (h', p)) (hs : l.size ≠ 0) :
    ∃ fp, p ≠ .null ∧ Fresh h h' fp ∧
      Owned h' fp fun g => g.read p = some c ∧ g.dealloc p l = some (g.minus fp) := by
  obtain ⟨fp, hl, hf⟩ := alloc_spec he
  exact ⟨fp, hl.ne_null, hf, fun g hg => ⟨leaf_read (hl.frame hg) hs, (hl.frame hg).dealloc⟩⟩

theorem leakData_spec {h h' : Heap} {t : Ty} {v : t.Val} {p : Ptr} (he : leakData h t v = (h', p)) :
    ∃ fp, p ≠ .null ∧ Fresh h h' fp ∧
      Owned h' fp fun g => readData g p t = some v ∧ dropData g p t = some (g.minus fp) := by
  cases t <;> simp only [leakData] at he
  case str =>
    obtain ⟨fp, hp, hf, ho⟩ := leakSlice_spec he
    refine ⟨fp, hp, hf, fun g hg => ?_⟩
    obtain ⟨hr, hd⟩ := ho g hg
    refine ⟨?_, ?_⟩
    · simp only [readData, hr]
      exact strOfBytes_strBytes v
    · simp [dropData, hp, hd]
  case i32 | f32 | i64 | f64 | bool =>
    obtain ⟨fp, hp, hf, ho⟩ := leafNum_spec he (by simp [l32, l64, lBool])
    refine ⟨fp, hp, hf, fun g hg => ?_⟩
    obtain ⟨hr, hd⟩ := ho g hg
    exact ⟨by simp [readData, hr], by simp [dropData, hp, hd]⟩
  case byteArray =>
    obtain ⟨fp, hp, hf, ho⟩ := leakArray_spec he rfl
    refine ⟨fp, hp, hf, fun g hg => ?_⟩
    obtain ⟨q, fq, hq, hr, hd⟩ := ho g hg
    exact ⟨by simp only [readData, hr]; exact leaf8 hq, by simp [dropData, hp, hd]⟩
  case i32Array | f32Array =>
    obtain ⟨fp, hp, hf, ho⟩ := leakArray_spec he rfl
    refine ⟨fp, hp, hf, fun g hg => ?_⟩
    obtain ⟨q, fq, hq, hr, hd⟩ := ho g hg
    exact ⟨by simp only [readData, hr]; exact leaf32 hq, by simp [dropData, hp, hd]⟩
  case i64Array | f64Array =>
    obtain ⟨fp, hp, hf, ho⟩ := leakArray_spec he rfl
    refine ⟨fp, hp, hf, fun g hg => ?_⟩
    obtain ⟨q, fq, hq, hr, hd⟩ := ho g hg
    exact ⟨by simp only [readData, hr]; exact leaf64 hq, by simp [dropData, hp, hd]⟩

/-- What an error object shows. -/
def readError (h : Heap) (e : Ptr) : Option (Int × Option Bytes) :=
  match h.read e with
  | some (.internalError code r) =>
    if r = .null then some (code, none) else (readSlice h r).map fun bs => (code, some bs)
  | _ => none

theorem leakError_spec {h h' : Heap} {code : Int} {reason : Option String} {p : Ptr}
    (he : leakError h code reason = (h', p)) :
    ∃ fp, p ≠ .null ∧ Fresh h h' fp ∧
      Owned h' fp fun g => readError g p = some (code, reason.map strBytes) ∧ dropError g p = some (g.minus fp) := by
  cases reason with
  | none =>
    simp only [leakError] at he
    obtain ⟨fp, hp, hf, ho⟩ := leafNum_spec he (by simp [lInternalError])
    refine ⟨fp, hp, hf, fun g hg => ?_⟩
    obtain ⟨hr, hd⟩ := ho g hg
    exact ⟨by simp [readError, hr], by simp [dropError, hp, hr, hd]⟩
  | some s =>
    simp only [leakError] at he
    generalize e1 : leakSlice h s = r1 at he
    obtain ⟨h1, q⟩ := r1
    simp only at he
    obtain ⟨fq, hq, hf1, ho1⟩ := leakSlice_spec e1
    obtain ⟨fp, hl, hf⟩ := alloc_spec he
    rcases hl with ⟨h0, _⟩ | ⟨_, n, rfl, rfl, hn⟩
    · simp [lInternalError] at h0
    refine ⟨fq ++ [n], by simp, hf1.trans hf, fun g hg => ?_⟩
    have hgn : g.at_ n = some (lInternalError, .internalError code q) := by rw [hg n (by simp), hn]
    have hnf : n ∉ fq := by
      intro hc
      have := hf1.range n hc; have := hf.range n (by simp); omega
    have hr : g.read (.addr n) = some (.internalError code q) := by rw [Heap.read_addr, hgn]; rfl
    obtain ⟨hrs, hds⟩ := ho1 g fun m hm => by
      rw [hg m (by simp [hm]), hf.agree (p := fq) (fun m hm => (hf1.range m hm).2) m hm]
    refine ⟨by simp [readError, hr, hq, hrs], ?_⟩
    simp only [dropError, hr, hq, if_false, hds, Option.bind_some]
    rw [if_neg (by simp), Heap.dealloc_addr (c := .internalError code q)
      (by rw [Heap.at_minus, if_neg hnf, hgn]) (by simp [lInternalError]), Heap.minus_minus]

theorem look_eq (h : Heap) (p : Ptr) (t : Ty) : look h p t =
    match h.read p with
    | some (.rawBuffer d token e) =>
      if e ≠ .null then (readError h e).map fun x => .error x.1 x.2
      else if d = .null then some .nothing
      else if token = t then (readData h d t).map .value
      else none
    | _ => none := by
  unfold look
  cases h.read p with
  | none => rfl
  | some c =>
    cases c <;> try rfl
    simp only
    split
    · unfold readError
      cases h.read _ with
      | none => rfl
      | some c' =>
        cases c' <;> try rfl
        simp only
        split
        · rfl
        · simp [Option.map_map, Function.comp_def]
    · rfl

/-- A result with data or error: the last allocation on top of what the other part took. -/
theorem buffer_spec {h h1 h2 : Heap} {p d e : Ptr} {t : Ty} {fq : List Nat} (hf1 : Fresh h h1 fq)
    (he : h1.alloc lRawBuffer (.rawBuffer d t e) = (h2, p)) {D : Heap → Prop}
    (hdd : Owned h1 fq fun g => (∃ g1, dropData g d t = some g1 ∧ dropError g1 e = some (g.minus fq)) ∧ D g) :
    ∃ fp, Fresh h h2 fp ∧ Owned h2 fp fun g =>
      g.read p = some (.rawBuffer d t e) ∧ freeBuffer g p = some (g.minus fp) ∧ D g := by
  obtain ⟨fp, hl, hf⟩ := alloc_spec he
  rcases hl with ⟨h0, _⟩ | ⟨_, n, rfl, rfl, hn⟩
  · simp [lRawBuffer] at h0
  refine ⟨fq ++ [n], hf1.trans hf, fun g hg => ?_⟩
  have hgn : g.at_ n = some (lRawBuffer, .rawBuffer d t e) := by rw [hg n (by simp), hn]
  have hnf : n ∉ fq := by
    intro hc
    have := hf1.range n hc; have := hf.range n (by simp); omega
  have hr : g.read (.addr n) = some (.rawBuffer d t e) := by rw [Heap.read_addr, hgn]; rfl
  obtain ⟨⟨g1, h1, h2⟩, hD⟩ := hdd g fun m hm => by
      rw [hg m (by simp [hm]), hf.agree (p := fq) (fun m hm => (hf1.range m hm).2) m hm]
  refine ⟨hr, ?_, hD⟩
  simp only [freeBuffer, hr, h1, Option.bind_some, h2]
  rw [Heap.dealloc_addr (c := .rawBuffer d t e) (by rw [Heap.at_minus, if_neg hnf, hgn]) (by simp [lRawBuffer]),
    Heap.minus_minus]

theorem errorRet_spec {h h' : Heap} {p : Ptr} {t : Ty} {e : Error}
    (he : (match errorCode e with
      | none => Ret.abort
      | some (code, reason) =>
        let (h, q) := leakError h code reason
        let (h, p) := h.alloc lRawBuffer (.rawBuffer .null t q)
        .ok h p) = .ok h' p) :
    ∃ fp d, documented e = some d ∧ Fresh h h' fp ∧ Owned h' fp fun g =>
      look g p t = some (.error d.1 (d.2.map strBytes)) ∧ freeBuffer g p = some (g.minus fp) := by
  have hdoc : errorCode e = documented e := by cases e <;> rfl
  rw [hdoc] at he
  cases hd : documented e with
  | none => rw [hd] at he; simp at he
  | some d =>
    obtain ⟨code, reason⟩ := d
    rw [hd] at he
    simp only at he
    generalize e1 : leakError h code reason = r1 at he
    obtain ⟨h1, q⟩ := r1
    simp only at he
    generalize e2 : h1.alloc lRawBuffer (.rawBuffer .null t q) = r2 at he
    obtain ⟨h2, p2⟩ := r2
    simp only [Ret.ok.injEq] at he
    obtain ⟨rfl, rfl⟩ := he
    obtain ⟨fq, hq, hf1, ho1⟩ := leakError_spec e1
    obtain ⟨fp, hf, ho⟩ := buffer_spec hf1 e2
      (D := fun g => readError g q = some (code, reason.map strBytes))
      (fun g hg => ⟨⟨g, by simp [dropData], (ho1 g hg).2⟩, (ho1 g hg).1⟩)
    refine ⟨fp, _, rfl, hf, fun g hg => ?_⟩
    obtain ⟨hr, hfree, hD⟩ := ho g hg
    exact ⟨by simp [look_eq, hr, hq, hD], hfree⟩

theorem ret_spec {h h' : Heap} {p : Ptr} {o : Outcome} (he : o.ret h = .ok h' p) :
    ∃ fp s, o.shows = some s ∧ Fresh h h' fp ∧ Owned h' fp fun g =>
      look g p o.ty = some s ∧ freeBuffer g p = some (g.minus fp) := by
  match o with
  | .get t (.ok v) =>
    simp only [Outcome.ret, getRet] at he
    generalize e1 : leakData h t v = r1 at he
    obtain ⟨h1, d⟩ := r1
    simp only at he
    generalize e2 : h1.alloc lRawBuffer (.rawBuffer d t .null) = r2 at he
    obtain ⟨h2, p2⟩ := r2
    simp only [Ret.ok.injEq] at he
    obtain ⟨rfl, rfl⟩ := he
    obtain ⟨fq, hq, hf1, ho1⟩ := leakData_spec e1
    obtain ⟨fp, hf, ho⟩ := buffer_spec hf1 e2 (D := fun g => readData g d t = some v)
      (fun g hg => ⟨⟨_, (ho1 g hg).2, by simp [dropError]⟩, (ho1 g hg).1⟩)
    refine ⟨fp, _, rfl, hf, fun g hg => ?_⟩
    obtain ⟨hr, hfree, hD⟩ := ho g hg
    exact ⟨by simp [look_eq, hr, hq, hD, Outcome.ty], hfree⟩
  | .get t (.err e) =>
    obtain ⟨fp, d, hd, hf, ho⟩ := errorRet_spec he
    exact ⟨fp, _, by simp only [Outcome.shows, hd, Option.map_some]; rfl, hf, ho⟩
  | .get t .panic => simp [Outcome.ret, getRet] at he
  | .done t (.ok ()) =>
    simp only [Outcome.ret, unitRet] at he
    generalize e2 : h.alloc lRawBuffer (.rawBuffer .null t .null) = r2 at he
    obtain ⟨h2, p2⟩ := r2
    simp only [Ret.ok.injEq] at he
    obtain ⟨rfl, rfl⟩ := he
    obtain ⟨fp, hf, ho⟩ := buffer_spec (h := h) (fq := []) 
      ⟨Nat.le_refl _, by simp, fun _ _ => rfl⟩ e2 (D := fun g => True)
      (fun g hg => ⟨⟨g, by simp [dropData], by simp [dropError, Heap.minus_nil]⟩, trivial⟩)
    refine ⟨fp, _, rfl, hf, fun g hg => ?_⟩
    obtain ⟨hr, hfree, _⟩ := ho g hg
    exact ⟨by simp [look_eq, hr], hfree⟩
  | .done t (.err e) =>
    obtain ⟨fp, d, hd, hf, ho⟩ := errorRet_spec he
    exact ⟨fp, _, by simp only [Outcome.shows, hd, Option.map_some]; rfl, hf, ho⟩
  | .done t .panic => simp [Outcome.ret, unitRet] at he

/-- What is true of every state a C caller gets to: the results it holds own disjoint blocks, and these are all. -/
structure CInv (s : CState) (l : List ((Ptr × Outcome) × List Nat)) : Prop where
  held : s.held = l.map (·.1)
  good : ∀ x ∈ l, (∀ m ∈ x.2, m < s.heap.next) ∧ ∃ v, x.1.2.shows = some v ∧ Owned s.heap x.2 fun g =>
    look g x.1.1 x.1.2.ty = some v ∧ freeBuffer g x.1.1 = some (g.minus x.2)
  apart : l.Pairwise fun x y => ∀ m ∈ x.2, m ∉ y.2
  all : ∀ m, s.heap.at_ m ≠ none → ∃ x ∈ l, m ∈ x.2

theorem map_eraseIdx {α β : Type} (f : α → β) (l : List α) (i : Nat) : (l.map f).eraseIdx i = (l.eraseIdx i).map f := by
  induction l generalizing i with
  | nil => simp
  | cons a l ih => cases i <;> simp [ih]

theorem CInv.step {s s' : CState} {l e} (hi : CInv s l) (hs : s.step e = some s') : ∃ l', CInv s' l' := by
  cases e with
  | call o =>
    simp only [CState.step] at hs
    cases hr : o.ret s.heap with
    | abort => rw [hr] at hs; simp at hs
    | ok h p =>
      rw [hr] at hs
      simp only [Option.some.injEq] at hs
      subst hs
      obtain ⟨fp, v, hv, hf, ho⟩ := ret_spec hr
      refine ⟨l ++ [((p, o), fp)], ⟨by simp [hi.held], ?_, ?_, ?_⟩⟩
      · intro x hx
        rcases List.mem_append.1 hx with hx | hx
        · obtain ⟨hb, v', hv', ho'⟩ := hi.good x hx
          exact ⟨fun m hm => Nat.lt_of_lt_of_le (hb m hm) hf.next, v', hv', ho'.frame (hf.agree hb)⟩
        · simp only [List.mem_singleton] at hx
          subst hx
          exact ⟨fun m hm => (hf.range m hm).2, v, hv, ho⟩
      · refine List.pairwise_append.2 ⟨hi.apart, List.pairwise_singleton .., ?_⟩
        intro x hx y hy m hm hm'
        simp only [List.mem_singleton] at hy
        subst hy
        have := (hi.good x hx).1 m hm
        have := (hf.range m hm').1
        omega
      · intro m hm
        by_cases hmf : m ∈ fp
        · exact ⟨_, List.mem_append.2 (.inr (List.mem_singleton.2 rfl)), hmf⟩
        · rw [hf.other m hmf] at hm
          obtain ⟨x, hx, hmx⟩ := hi.all m hm
          exact ⟨x, List.mem_append.2 (.inl hx), hmx⟩
  | free i =>
    simp only [CState.step] at hs
    cases hh : s.held[i]? with
    | none => rw [hh] at hs; simp only [Option.some.injEq] at hs; subst hs; exact ⟨l, hi⟩
    | some po =>
      rw [hh] at hs
      simp only [Option.map_eq_some_iff] at hs
      obtain ⟨h', hfree, rfl⟩ := hs
      rw [hi.held, List.getElem?_map, Option.map_eq_some_iff] at hh
      obtain ⟨x, hx, rfl⟩ := hh
      have hxl : x ∈ l := List.mem_of_getElem? hx
      obtain ⟨hb, v, hv, ho⟩ := hi.good x hxl
      have := (ho s.heap fun _ _ => rfl).2
      rw [this] at hfree
      simp only [Option.some.injEq] at hfree
      subst hfree
      obtain ⟨hlt, hget⟩ := List.getElem?_eq_some_iff.1 hx
      have hdis : ∀ y ∈ l.eraseIdx i, ∀ m ∈ y.2, m ∉ x.2 := by
        intro y hy m hm hm'
        obtain ⟨j, hj, hji⟩ := List.mem_eraseIdx_iff_getElem?.1 hy
        obtain ⟨hjl, hjg⟩ := List.getElem?_eq_some_iff.1 hji
        rcases Nat.lt_or_gt_of_ne hj with hlt' | hgt
        · exact List.pairwise_iff_getElem.1 hi.apart j i hjl hlt hlt' m (by rw [hjg]; exact hm) (by rw [hget]; exact hm')
        · exact List.pairwise_iff_getElem.1 hi.apart i j hlt hjl hgt m (by rw [hget]; exact hm') (by rw [hjg]; exact hm)
      refine ⟨l.eraseIdx i, ⟨by simp only [hi.held, map_eraseIdx], ?_, hi.apart.sublist (List.eraseIdx_sublist ..), ?_⟩⟩
      · intro y hy
        obtain ⟨hb', v', hv', ho'⟩ := hi.good y (List.mem_of_mem_eraseIdx hy)
        refine ⟨hb', v', hv', ho'.frame fun m hm => ?_⟩
        rw [Heap.at_minus, if_neg (hdis y hy m hm)]
      · intro m hm
        rw [Heap.at_minus] at hm
        by_cases hmx : m ∈ x.2
        · simp [hmx] at hm
        · rw [if_neg hmx] at hm
          obtain ⟨y, hy, hmy⟩ := hi.all m hm
          obtain ⟨j, hjl, hjg⟩ := List.getElem_of_mem hy
          refine ⟨y, List.mem_eraseIdx_iff_getElem?.2 ⟨j, ?_, List.getElem?_eq_some_iff.2 ⟨hjl, hjg⟩⟩, hmy⟩
          rintro rfl
          rw [hget] at hjg
          subst hjg
          exact hmx hmy

theorem CInv.no_stop {s : CState} {l} (hi : CInv s l) (i : Nat) : ∃ s', s.step (.free i) = some s' := by
  simp only [CState.step]
  cases hh : s.held[i]? with
  | none => exact ⟨_, rfl⟩
  | some po =>
    rw [hi.held, List.getElem?_map, Option.map_eq_some_iff] at hh
    obtain ⟨x, hx, rfl⟩ := hh
    obtain ⟨_, v, hv, ho⟩ := hi.good x (List.mem_of_getElem? hx)
    simp only [(ho s.heap fun _ _ => rfl).2]
    exact ⟨_, rfl⟩

theorem CInv.run {s s' : CState} {l es} (hi : CInv s l) (hs : s.run es = some s') : ∃ l', CInv s' l' := by
  induction es generalizing s l with
  | nil => simp only [CState.run, Option.some.injEq] at hs; subst hs; exact ⟨l, hi⟩
  | cons e es ih =>
    simp only [CState.run, Option.bind_eq_some_iff] at hs
    obtain ⟨s1, h1, h2⟩ := hs
    obtain ⟨l1, hi1⟩ := hi.step h1
    exact ih hi1 h2

theorem CInv.init : CInv {} [] := ⟨rfl, by simp, .nil, by simp [Heap.at_]⟩

theorem blocks_nil {h : Heap} (ha : ∀ m, h.at_ m = none) : h.blocks = [] := by
  cases hb : h.blocks with
  | nil => rfl
  | cons b bs =>
    have := ha b.1
    simp [Heap.at_, hb] at this

theorem ret_abort (h : Heap) (o : Outcome) : o.ret h = .abort ↔ o.shows = none := by
  have hdoc : ∀ e, errorCode e = documented e := by intro e; cases e <;> rfl
  match o with
  | .get t (.ok v) => simp [Outcome.ret, getRet, Outcome.shows]
  | .get t (.err e) =>
    simp only [Outcome.ret, getRet, Outcome.shows, hdoc]
    cases documented e <;> simp
  | .get t .panic => simp [Outcome.ret, getRet, Outcome.shows]
  | .done t (.ok ()) => simp [Outcome.ret, unitRet, Outcome.shows]
  | .done t (.err e) =>
    simp only [Outcome.ret, unitRet, Outcome.shows, hdoc]
    cases documented e <;> simp
  | .done t .panic => simp [Outcome.ret, unitRet, Outcome.shows]

/-! ### C36 -/

/-- **C36.** Whatever a C caller calls and frees, in any order: as long as no call aborts, each result it still holds
shows what the call had to say (value, nothing, or code and reason), each can be freed - every block is released with the
layout it was allocated with, no block twice - and once it has freed them all nothing is left on the heap. -/
theorem C36_freed_exactly_once {es : List CEv} {s : CState} (h : CState.run {} es = some s) :
    (∀ p o, (p, o) ∈ s.held → ∃ v, o.shows = some v ∧ look s.heap p o.ty = some v) ∧
    (∀ i, s.step (.free i) ≠ none) ∧
    (s.held = [] → s.heap.blocks = []) := by
  obtain ⟨l, hi⟩ := CInv.init.run h
  refine ⟨?_, ?_, ?_⟩
  · intro p o hp
    rw [hi.held, List.mem_map] at hp
    obtain ⟨x, hx, he⟩ := hp
    obtain ⟨_, v, hv, ho⟩ := hi.good x hx
    have := (ho s.heap fun _ _ => rfl).1
    obtain ⟨⟨p', o'⟩, fp⟩ := x
    cases he
    exact ⟨v, hv, this⟩
  · intro i hn
    obtain ⟨s', hs'⟩ := hi.no_stop i
    rw [hn] at hs'; cases hs'
  · intro hh
    apply blocks_nil
    intro m
    cases ha : s.heap.at_ m with
    | none => rfl
    | some b =>
      obtain ⟨x, hx, _⟩ := hi.all m (by rw [ha]; simp)
      have : l = [] := by simpa [hi.held] using hh
      rw [this] at hx; cases hx

/-- **C36**, one call: a call, then (after anything else) freeing its result: what it took is released and nothing else
changes.  Here: freed at once, every address reads as before the call. -/
theorem C36_leaves_no_trace {es : List CEv} {s s1 s2 : CState} {o : Outcome} (h : CState.run {} es = some s)
    (h1 : s.step (.call o) = some s1) (h2 : s1.step (.free s.held.length) = some s2) :
    s2.held = s.held ∧ ∀ p, s2.heap.read p = s.heap.read p := by
  obtain ⟨l, hi⟩ := CInv.init.run h
  simp only [CState.step] at h1
  cases hr : o.ret s.heap with
  | abort => rw [hr] at h1; simp at h1
  | ok h' p =>
    rw [hr] at h1
    simp only [Option.some.injEq] at h1
    subst h1
    obtain ⟨fp, v, hv, hf, ho⟩ := ret_spec hr
    simp only [CState.step, List.getElem?_append_right (Nat.le_refl _), Nat.sub_self, List.getElem?_cons_zero,
      (ho h' fun _ _ => rfl).2, Option.map_some, Option.some.injEq] at h2
    subst h2
    refine ⟨by simp [List.eraseIdx_append_of_length_le (Nat.le_refl _)], ?_⟩
    intro q
    cases q with
    | null => rfl
    | dangling => rfl
    | addr m =>
      rw [Heap.read_addr, Heap.read_addr]
      congr 1
      simp only
      rw [Heap.at_minus]
      by_cases hm : m ∈ fp
      · rw [if_pos hm]
        cases ha : s.heap.at_ m with
        | none => rfl
        | some b =>
          obtain ⟨x, hx, hmx⟩ := hi.all m (by rw [ha]; simp)
          have := (hi.good x hx).1 m hmx
          have := (hf.range m hm).1
          omega
      · rw [if_neg hm, hf.other m hm]

/-- **C36**, when a call returns: exactly when there is something to show, whatever the heap. -/
theorem C36_call_returns (h : Heap) (o : Outcome) : o.ret h ≠ .abort ↔ o.shows ≠ none :=
  not_congr (ret_abort h o)

/-- **C36**, the logger of a C caller: it can read the whole message, and the message is released afterwards. -/
theorem C36_logger {es : List CEv} {s : CState} (hr : CState.run {} es = some s) (msg : String) :
    ∃ h', callTarget s.heap msg = some (strBytes msg, h') ∧ ∀ p, h'.read p = s.heap.read p := by
  obtain ⟨l, hi⟩ := CInv.init.run hr
  unfold callTarget
  generalize e1 : leakSlice s.heap msg = r1
  obtain ⟨h1, p⟩ := r1
  obtain ⟨fp, hp, hf, ho⟩ := leakSlice_spec e1
  obtain ⟨ho1, ho2⟩ := ho h1 fun _ _ => rfl
  refine ⟨h1.minus fp, by simp only [ho1, Option.bind_some, ho2, Option.map_some], ?_⟩
  intro q
  cases q with
  | null => rfl
  | dangling => rfl
  | addr m =>
    rw [Heap.read_addr, Heap.read_addr, Heap.at_minus]
    congr 1
    by_cases hm : m ∈ fp
    · rw [if_pos hm]
      cases ha : s.heap.at_ m with
      | none => rfl
      | some b =>
        obtain ⟨x, hx, hmx⟩ := hi.all m (by rw [ha]; simp)
        have := (hi.good x hx).1 m hmx
        have := (hf.range m hm).1
        omega
    · rw [if_neg hm, hf.other m hm]

/-! ### The hypotheses can be met -/

/-- A string, an empty array, an error with a reason, an array and an empty result, freed out of order. -/
def demoC : List CEv :=
  [.call (.get .str (.ok "héllo")), .call (.get .i64Array (.ok [])), .call (.get .i32 (.err (.decodeFailed "bad"))),
   .free 0, .call (.get .f32Array (.ok [1, 2, 3])), .call (.done .bool (.ok ())), .free 1, .free 1]

example : (CState.run {} demoC).map (fun s => (s.heap.blocks.map (fun b => (b.1, b.2.1)), s.held.map (·.1))) =
    some ([(12, ⟨24, 8⟩), (4, ⟨24, 8⟩), (3, ⟨24, 8⟩)], [.addr 4, .addr 12]) := by decide +kernel
example : (CState.run {} (demoC ++ [.free 1, .free 0])).map (fun s => (s.heap.blocks, s.held.map (·.1))) =
    some ([], []) := by decide +kernel
/-- Freeing twice is undefined behaviour in this model. -/
example : ((CState.run {} (demoC.take 4)).bind fun s => freeBuffer s.heap (.addr 2)) = none := by decide +kernel
/-- So is freeing with another layout. -/
example : ((CState.run {} [.call (.get .f32Array (.ok [1, 2, 3]))]).bind fun s => s.heap.dealloc (.addr 0) (lArr64 3)) = none := by
  decide +kernel

end Mmkv.Ffi
