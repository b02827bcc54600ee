import Verif.Props.LogText
import Verif.Props.Alike
/-!
# C103: what the log of a whole history gives away when values are strings
-/

namespace Mmkv.LogText
open Ffi Spec Inst

/-! ### What a user has in mind -/

/-- The messages of the mutating calls of a history through the C interface, with what they returned, each on some heap (the
calls of a store return one after the other, in the order they were made). -/
def writesText (fmt : Fmt) (level : Int) (hs : Nat → Heap) : List (Ev Unit) → List (Out Unit) → List Msg
  | .put key token _ :: es, r :: rs =>
    (match [Ty.i32, .str, .bool, .i64, .f32, .f64, .byteArray, .i32Array, .i64Array, .f32Array, .f64Array].find? fun t => t.token == token with
      | some t => atLevel level (putText fmt (hs rs.length) key t r)
      | none => []) ++ writesText fmt level hs es rs
  | .delete key :: es, r :: rs => atLevel level (deleteText fmt (hs rs.length) key r) ++ writesText fmt level hs es rs
  | .clear :: es, _ :: rs => writesText fmt level hs es rs
  | .api _ :: es, rs | .drop :: es, rs | .io _ :: es, rs => writesText fmt level hs es rs
  | _, _ => []

/-- Reading the key as a string does not find bytes that are no text (no `put_str` can have put them). -/
def IsText (s : Inst Unit) (key : String) : Prop := s.get key .str ≠ .err .dataInvalid

/-! ### Proofs -/

theorem writesText_alike (fmt : Fmt) (level : Int) (hs : Nat → Heap) {es es' : List (Ev Unit)} (h : Pairwise2 (EvAlike id) es es')
    (rs : List (Out Unit)) : writesText fmt level hs es' rs = writesText fmt level hs es rs := by
  induction h generalizing rs with
  | nil => rfl
  | cons hab _ ih =>
    cases hab with
    | put k t bs bs' _ => cases rs with
      | nil => rfl
      | cons r rs => simp only [writesText, id_eq, ih]
    | delete k => cases rs with
      | nil => rfl
      | cons r rs => simp only [writesText, id_eq, ih]
    | clear => cases rs with
      | nil => rfl
      | cons r rs => simp only [writesText, ih]
    | api | drop | io => simp only [writesText, ih]

theorem renames_id : Renames id := ⟨fun _ _ h => h, fun _ => rfl⟩

/-- Bytes that are read as a string are the bytes of the string. -/
theorem strFromBytes_ok {bs : Bytes} {s : String} (h : strFromBytes bs = .ok s) : strBytes s = bs := by
  unfold strFromBytes at h
  split at h
  · rename_i s' hs
    cases h
    exact strBytes_of_strOfBytes hs
  · cases h

theorem get_bind (s : Inst Unit) (key : String) : s.get key .str =
    match s.getAs key (Ty.token .str) .ok with
    | .ok bs => strFromBytes bs
    | .err e => .err e
    | .panic => .panic := by
  unfold Inst.get getAs
  split
  · rfl
  split
  · rfl
  cases s.kv.get key with
  | none => rfl
  | some b =>
    dsimp only [Buffer.parseAs]
    cases b.checkType (Ty.token .str) <;> rfl

theorem lookAndFree_alike (fmt : Fmt) (level : Int) (h : Heap) (key : String) {s s' : Inst Unit} (hS : SeenAs id s s')
    (ht : IsText s key) (ht' : IsText s' key) :
    lookAndFree fmt level h key .str (s'.get key .str) = lookAndFree fmt level h key .str (s.get key .str) := by
  have hr := hS.reads key (Ty.token .str)
  unfold IsText at ht ht'
  rw [get_bind] at ht ht' ⊢
  rw [get_bind s]
  simp only [id_eq] at hr
  generalize s.getAs key (Ty.token .str) .ok = r at hr ht
  generalize s'.getAs key (Ty.token .str) .ok = r' at hr ht'
  cases r with
  | panic => cases r' with
    | panic => rfl
    | ok v => exact hr.elim
    | err e => exact hr.elim
  | err e => cases r' with
    | panic => exact hr.elim
    | ok v => exact hr.elim
    | err e' => rw [show e' = e from hr]
  | ok v => cases r' with
    | panic => exact hr.elim
    | err e => exact hr.elim
    | ok v' =>
      have hl : v'.length = v.length := hr
      have form : ∀ bs : Bytes, strFromBytes bs ≠ .err .dataInvalid → ∃ x, strFromBytes bs = .ok x ∧ strBytes x = bs := by
        intro bs hb
        cases hx : strOfBytes bs with
        | none => simp [strFromBytes, hx] at hb
        | some x => exact ⟨x, by simp [strFromBytes, hx], strFromBytes_ok (by simp [strFromBytes, hx])⟩
      obtain ⟨x, hx, hxb⟩ := form v ht
      obtain ⟨x', hx', hxb'⟩ := form v' ht'
      dsimp only
      rw [hx, hx']
      exact C103_partial_strings fmt level h key x' x (by simp only [size, hxb, hxb', hl])

/-! ### The claim -/

/-- **C103, for whole histories of strings.** Take any history of any number of sessions on a fresh directory and replace its
values by others of the same length (its keys stay, since the log names them): the other history happens too, and at every
level its mutating calls log the same, and so does afterwards reading any key as a string and freeing the result.  (Only
reading back numbers, bools and arrays makes a difference: `C103_given_away`.) -/
theorem C103_partial_history {page : Nat} (h8 : 8 ≤ page) (h32 : page < 2 ^ 32) {xs xs' : List (Session Unit)} {es es' : List (Ev Unit)}
    {rss : List (List (Out Unit))} {rs : List (Out Unit)} {d : Dir Unit} {s0 s : Inst Unit}
    (hx : Pairwise2 (Session.Alike id) xs xs') (he : Pairwise2 (EvAlike id) es es')
    (hf : ∀ x ∈ xs, ∀ e ∈ x.evs, e.Fits page) (hf' : ∀ x ∈ xs', ∀ e ∈ x.evs, e.Fits page) (hfe : ∀ e ∈ es, e.Fits page) (hfe' : ∀ e ∈ es', e.Fits page)
    (hroom : page * (callCount xs + (calls es).length) + 8 < 2 ^ 64)
    (hl : Life plain page Dir.fresh xs rss d) (ho : openAt plain () page d.file = some s0) (hr : run plain s0 es = some (s, rs)) :
    ∃ d' s0' s', Life plain page Dir.fresh xs' rss d' ∧ openAt plain () page d'.file = some s0' ∧ run plain s0' es' = some (s', rs) ∧
      ∀ fmt level, (∀ hs, writesText fmt level hs es' rs = writesText fmt level hs es rs) ∧
        ∀ h key, IsText s key → IsText s' key →
          lookAndFree fmt level h key .str (s'.get key .str) = lookAndFree fmt level h key .str (s.get key .str) := by
  obtain ⟨d', s0', s', h1, h2, h3, _, hS⟩ := C95_sizes_only h8 h32 renames_id hx he hf hf' hfe hfe' hroom hl ho hr
  exact ⟨d', s0', s', h1, h2, h3, fun fmt level => ⟨fun hs => writesText_alike fmt level hs he rs,
    fun h key => lookAndFree_alike fmt level h key hS⟩⟩

/-- What a C program that puts a name, reads it and frees the result leaves in the log at the level it starts with. -/
def nameRun (name : String) : Option (List Msg) :=
  (openAt plain () 64 []).bind fun s0 => (run plain s0 (fullPut "a" 1 (strBytes name))).map fun q =>
    writesText fmt0 5 (fun _ => {}) (fullPut "a" 1 (strBytes name)) q.2 ++ lookAndFree fmt0 5 {} "a" .str (q.1.get "a" .str)

example : nameRun "Alice" = nameRun "Carol" ∧ nameRun "Alice" = some
    [(.verbose, "put string for key 'a' success"),
     (.verbose, "leak RawBuffer { raw_data: 0x0, type_token: Str, err: 0x0 }, ptr: 0x1000"),
     (.verbose, "get string for key 'a' success"),
     (.verbose, "leak RawBuffer { raw_data: 0x1001, type_token: Str, err: 0x0 }, ptr: 0x1002"),
     (.verbose, "release RawBuffer { raw_data: 0x1001, type_token: Str, err: 0x0 }, ptr: 0x1002")] := by decide +kernel

/-- The hypotheses of `C103_partial_history` for this program. -/
example : ∃ s0 s rs, openAt plain () 64 [] = some s0 ∧ run plain s0 (fullPut "a" 1 (strBytes "Alice")) = some (s, rs) ∧
    rs = [.ok ()] ∧ IsText s "a" ∧
    ∃ d' s0' s', Life plain 64 Dir.fresh [] [] d' ∧ openAt plain () 64 d'.file = some s0' ∧
      run plain s0' (fullPut "a" 1 (strBytes "Carol")) = some (s', rs) ∧
      ∀ fmt level, ∀ h key, IsText s key → IsText s' key →
        lookAndFree fmt level h key .str (s'.get key .str) = lookAndFree fmt level h key .str (s.get key .str) := by
  have hc : ((openAt plain () 64 []).bind fun s0 => (run plain s0 (fullPut "a" 1 (strBytes "Alice"))).map fun q =>
      (q.2, decide (q.1.get "a" .str = (.ok "Alice" : Out String)))) = some ([.ok ()], true) := by decide +kernel
  cases h2 : openAt plain () 64 [] with
  | none => rw [h2] at hc; cases hc
  | some s0 =>
  rw [h2] at hc
  simp only [Option.bind_some] at hc
  cases h3 : run plain s0 (fullPut "a" 1 (strBytes "Alice")) with
  | none => rw [h3] at hc; cases hc
  | some q =>
  obtain ⟨s, rs⟩ := q
  rw [h3] at hc
  simp only [Option.map_some, Option.some.injEq, Prod.mk.injEq, decide_eq_true_eq] at hc
  have ht : IsText s "a" := by unfold IsText; rw [hc.2]; exact fun h => nomatch h
  refine ⟨s0, s, rs, rfl, h3, hc.1, ht, ?_⟩
  obtain ⟨d', s0', s', h1, h4, h5, h6⟩ := C103_partial_history (xs := []) (xs' := []) (rss := []) (d := Dir.fresh) (page := 64) (by decide) (by decide)
    .nil (alike_fullPut (ρ := id) "a" 1 (bs := strBytes "Alice") (bs' := strBytes "Carol") (by decide +kernel))
    (by intro x hx; cases hx) (by intro x hx; cases hx) (fullPut_fits' (by decide +kernel)) (fullPut_fits' (by decide +kernel)) (by decide +kernel)
    (.nil _) h2 h3
  exact ⟨d', s0', s', h1, h4, h5, fun fmt level => (h6 fmt level).2⟩

end Mmkv.LogText
