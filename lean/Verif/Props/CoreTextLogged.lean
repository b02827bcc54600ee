import Verif.Props.CoreText
import Verif.Model.Logged
/-!
# C104: the texts agree with the log calls in place

Model/Logged is the code with its log calls in the places they have in the source, but without texts.  A logger that takes just
as many messages as Model/CoreText says are logged (those that pass the filter) is used up exactly, at every level: the two say
the same about which messages are logged and when.
-/

namespace Mmkv.CoreText
open LogText

/-- A logger at this level that takes these messages and `n` more. -/
def room (lv : Int) (n : Nat) (l : List Msg) : Logs := ⟨lv, some (n + (atLevel lv l).length)⟩

variable {lv : Int} {n : Nat}

theorem say_room (s : WState) (m : Msg) (l : List Msg) : say m.1 (s, room lv n (m :: l)) = .done (s, room lv n l) := by
  unfold say room atLevel
  by_cases h : lv < m.1.code
  · simp [h]
  · rw [if_neg h, List.filter_cons, if_pos (by simpa using h), List.length_cons, ← Nat.add_assoc]

theorem sayN_room (s : WState) (v : LogLevel) (l : List Msg) : ∀ l0 : List Msg, (∀ m ∈ l0, m.1 = v) →
    sayN v l0.length (s, room lv n (l0 ++ l)) = .done (s, room lv n l)
  | [], _ => rfl
  | m :: l0, h => by
    have hm := h m List.mem_cons_self
    simp only [List.length_cons, sayN, List.cons_append]
    rw [← hm, say_room, Run.andThen_done, hm]
    exact sayN_room s v l l0 fun x hx => h x (List.mem_cons_of_mem _ hx)

theorem iterText_errors (c : Codec) : ∀ (fuel pos : Nat) (bytes : Bytes),
    (iterText c fuel pos bytes).length = iterErrors c fuel pos bytes ∧ ∀ m ∈ iterText c fuel pos bytes, m.1 = .error
  | fuel, pos, [] => by cases fuel <;> exact ⟨rfl, fun _ h => nomatch h⟩
  | 0, pos, b :: bs => ⟨rfl, fun _ h => nomatch h⟩
  | fuel + 1, pos, b :: bs => by
    unfold iterText iterErrors
    cases c.dec (b :: bs) pos with
    | panic => exact ⟨rfl, fun _ h => nomatch h⟩
    | err e => exact ⟨rfl, by simp [badIter]⟩
    | ok ob len =>
      obtain ⟨h1, h2⟩ := iterText_errors c fuel (pos + 1) ((b :: bs).drop len)
      dsimp only
      refine ⟨?_, ?_⟩
      · rw [List.length_append, h1]
        split <;> rfl
      · intro m hm
        rcases List.mem_append.1 hm with hm | hm
        · split at hm
          · simp only [List.mem_singleton] at hm; subst hm; rfl
          · cases hm
        · exact h2 m hm

theorem readText_errors {c : Codec} {s : WState} {items : List (Option Buffer)} (h : s.readItems c = some items) :
    (readText c s).length = s.readErrors c ∧ ∀ m ∈ readText c s, m.1 = .error := by
  unfold WState.readItems at h
  unfold readText WState.readErrors
  cases ho : s.writeOffset with
  | none => rw [ho] at h; cases h
  | some off =>
    rw [ho] at h
    dsimp only at h ⊢
    by_cases h0 : off ≤ WState.lenOffset
    · rw [if_pos h0]
      have : (s.file.take off).drop WState.lenOffset = [] := by
        rw [List.drop_eq_nil_iff, List.length_take]; omega
      rw [this]
      exact ⟨rfl, fun _ h => nomatch h⟩
    rw [if_neg h0] at h ⊢
    by_cases h1 : s.mmLen < off
    · rw [if_pos h1] at h; cases h
    rw [if_neg h1]
    exact iterText_errors c _ _ _

theorem expandL_room {s t : WState} (h : s.expand = .done t) (l : List Msg) :
    WState.expandL (s, room lv n (expandText s ++ l)) = .done (t, room lv n l) := by
  have hx : expandText s = [(.info, "start expand, file size: " ++ num s.file.length), (.info, "expanded, file size: " ++ num t.file.length ++ ", cost ")] := by
    unfold expandText; rw [h]
  rw [hx]
  unfold WState.expandL
  have h1 := say_room (lv := lv) (n := n) s (.info, "start expand, file size: " ++ num s.file.length)
    ((.info, "expanded, file size: " ++ num t.file.length ++ ", cost ") :: l)
  dsimp only [List.cons_append, List.nil_append] at h1 ⊢
  rw [h1]
  simp only [Run.andThen_done]
  unfold WState.expand at h
  dsimp only at h
  split at h
  · rename_i hq
    injection h with h
    subst h
    simp only [mute, WState.growFile, if_pos hq, Run.andThen_done]
    have h2 := say_room (lv := lv) (n := n) { s with file := s.file ++ zeros s.page, log := s.log ++ [.setLen (s.file.length + s.page)] }
      (.info, "expanded, file size: " ++ num (s.file ++ zeros s.page).length ++ ", cost ") l
    dsimp only at h2
    rw [h2]
    simp only [Run.andThen_done, mute, WState.remap, List.length_append, zeros, List.length_replicate]
  · cases h

theorem trimLoopL_room {c : Codec} {maxLen : Nat} : ∀ {bs : List Buffer} {s t : WState} (_ : s.trimLoop c maxLen bs = .done t) (l : List Msg),
    WState.trimLoopL c maxLen bs (s, room lv n (trimLoopText c maxLen bs s ++ l)) = .done (t, room lv n l)
  | [], s, t, h, l => by
    injection h with h; subst h; rfl
  | b :: bs, s, t, h, l => by
    unfold WState.trimLoop at h
    unfold trimLoopText WState.trimLoopL
    cases he : c.enc b s.position with
    | none => rw [he] at h; cases h
    | some bytes =>
    rw [he] at h
    dsimp only at h ⊢
    cases ho : s.writeOffset with
    | none => rw [ho] at h; cases h
    | some off =>
    rw [ho] at h
    dsimp only at h ⊢
    rw [List.append_assoc]
    have key : ∀ {a : WState} {l' : List Msg} {x : Run LState} {y : Run WState}, x = .done (a, room lv n l') →
        y = .done a → (((y.andThen fun s => s.append bytes).andThen fun s => .done { s with position := s.position + 1 }).andThen
          fun s => WState.trimLoop c maxLen bs s) = .done t →
        l' = (match y.andThen fun s => s.append bytes with
          | .done t => trimLoopText c maxLen bs { t with position := t.position + 1 }
          | .panic _ => []) ++ l →
        (((x.andThen (mute fun s => s.append bytes)).andThen (mute fun s => .done { s with position := s.position + 1 })).andThen
          (WState.trimLoopL c maxLen bs)) = .done (t, room lv n l) := by
      intro a l' x y hx hy hr hl
      subst hx hy hl
      simp only [Run.andThen_done] at hr ⊢
      unfold mute
      dsimp only
      cases hap : a.append bytes with
      | panic s1 => rw [hap] at hr; cases hr
      | done s1 =>
        rw [hap] at hr
        simp only [Run.andThen_done] at hr ⊢
        exact trimLoopL_room hr l
    by_cases hle : off + bytes.length > maxLen
    · simp only [if_pos hle] at h ⊢
      cases hx : s.expand with
      | panic s1 => rw [hx] at h; cases h
      | done a =>
        rw [hx] at h
        exact key (expandL_room hx _) rfl h rfl
    · simp only [if_neg hle] at h ⊢
      exact key rfl rfl h rfl

/-- A write logs what Model/CoreText says, as many messages at each level.  (`hw`: the header it leaves can be read again; its
last message does so.) -/
theorem writeL_room {c : Codec} {o : List Buffer → List Buffer} {b : Buffer} {dup : Bool} {s t : WState} (h : s.write c o b dup = .done t)
    (hw : t.writeOffset.isSome = true) :
    WState.writeL c o b dup (s, room lv n (writeText c o b dup s)) = .done (t, room lv n []) := by
  unfold WState.write at h
  unfold writeText WState.writeL
  cases he : c.enc b s.position with
  | none => rw [he] at h; cases h
  | some data =>
  rw [he] at h
  dsimp only at h ⊢
  cases ho : s.writeOffset with
  | none => rw [ho] at h; cases h
  | some off =>
  rw [ho] at h
  dsimp only at h ⊢
  have hs0 : ∀ l, (if dup = true then (({ s with needTrim := true }, room lv n l) : LState) else (s, room lv n l)) =
      ((if dup = true then { s with needTrim := true } else s), room lv n l) := by
    intro l; split <;> rfl
  rw [hs0]
  generalize (if dup = true then { s with needTrim := true } else s) = s0 at h ⊢
  by_cases hle : data.length + off ≤ s.mmLen
  · simp only [if_pos hle] at h ⊢
    unfold mute
    dsimp only
    rw [h]
  simp only [if_neg hle] at h ⊢
  by_cases hn : s0.needTrim = true
  · simp only [if_pos hn] at h ⊢
    cases hi : s0.readItems c with
    | none => rw [hi] at h; cases h
    | some items =>
    rw [hi] at h
    dsimp only at h ⊢
    obtain ⟨r1, r2⟩ := readText_errors hi
    cases hr : s0.reset with
    | panic s1 => rw [hr] at h; cases h
    | done a =>
    rw [hr] at h
    simp only [Run.andThen_done] at h
    dsimp only
    cases ht : WState.trimLoop c s.mmLen (o (mapStep (intoMap items).1 (some b)).values) { a with position := 0 } with
    | panic s1 => rw [ht] at h; cases h
    | done u =>
    rw [ht] at h
    simp only [Run.andThen_done] at h
    injection h with h
    subst h
    dsimp only
    simp only [List.cons_append, List.nil_append]
    have e1 := say_room (lv := lv) (n := n) s0 (.info, "start trim, current len " ++ num off)
    have e2 := say_room (lv := lv) (n := n) s0 (.info, "start take snapshot")
    have e3 := say_room (lv := lv) (n := n) s0 (.info, "snapshot finished in ")
    dsimp only at e1 e2 e3
    rw [e1, Run.andThen_done, e2, Run.andThen_done]
    dsimp only
    rw [hi]
    dsimp only
    rw [← r1, sayN_room s0 .error _ _ r2, Run.andThen_done, e3, Run.andThen_done]
    simp only [mute, hr, Run.andThen_done, trimLoopL_room ht]
    have hu : u.writeOffset.isSome = true := hw
    unfold wroteText
    cases hx : u.writeOffset with
    | none => rw [hx] at hu; cases hu
    | some off' => exact say_room { u with needTrim := false } (.info, "wrote " ++ num u.position ++ " items, new len " ++ num off' ++ ", cost ") []
  · simp only [if_neg hn] at h ⊢
    cases hx : s0.expand with
    | panic s1 => rw [hx] at h; cases h
    | done a =>
      rw [hx] at h
      have h1 := expandL_room (lv := lv) (n := n) hx []
      rw [List.append_nil] at h1
      rw [h1]
      simp only [Run.andThen_done] at h ⊢
      unfold mute
      dsimp only
      rw [h]

/-- And so does opening. -/
theorem openStoreL_room {c : Codec} {page : Nat} {file : Bytes} {o : Opened} (h : openStore c page file = some o) :
    openStoreL c page file (room lv n (openText c page file)) = some (o, room lv n []) := by
  have h' := h
  unfold openStore at h'
  unfold openText openStoreL
  rw [h]
  dsimp only at h' ⊢
  by_cases h0 : (configNew page file).length = 0
  · rw [if_pos h0] at h'; cases h'
  rw [if_neg h0] at h' ⊢
  split at h'
  · cases h'
  rename_i items hi
  cases h'
  rw [hi]
  obtain ⟨r1, r2⟩ := readText_errors hi
  have hr : ∀ p : Nat, (WState.readErrors ({ file := configNew page file, mmLen := (configNew page file).length, page := page, position := p, needTrim := false } : WState) c) =
      (readText c ({ file := configNew page file, mmLen := (configNew page file).length, page := page, position := 0, needTrim := false } : WState)).length := fun p => r1.symm
  unfold WState.readItems at hi
  split at hi
  · cases hi
  rename_i off ho
  rw [ho]
  dsimp only
  rw [hr, sayN_room _ .error _ _ r2]
  simp only [Run.andThen_done]
  have e := say_room (lv := lv) (n := n) { file := configNew page file, mmLen := (configNew page file).length, page := page, position := (intoMap items).2, needTrim := false }
    (.info, "instance initialized, read " ++ num (intoMap items).1.length ++ " items, content len " ++ num off ++
            ", file size " ++ num (configNew page file).length ++ ", cost ") []
  dsimp only at e
  rw [e]

/-- The hypotheses of `writeL_room` for a compaction: with room for four messages all of its log calls get through, with room for
three the last one panics. -/
example : ((openStore crcCodec 64 []).bind fun o =>
      match (WState.write crcCodec id (Buffer.ofRaw "a" 1 (zeros 30)) false o.ws) with
      | .done s => some (writeText crcCodec id (Buffer.ofRaw "a" 1 (zeros 31)) true s,
          match s.write crcCodec id (Buffer.ofRaw "a" 1 (zeros 31)) true with
          | .done t => (t.writeOffset.isSome,
              decide (WState.writeL crcCodec id (Buffer.ofRaw "a" 1 (zeros 31)) true (s, ⟨5, some 4⟩) = .done (t, ⟨5, some 0⟩)),
              match WState.writeL crcCodec id (Buffer.ofRaw "a" 1 (zeros 31)) true (s, ⟨5, some 3⟩) with | .done _ => false | .panic _ => true)
          | .panic _ => (false, false, false))
      | .panic _ => none) =
    some ([(.info, "start trim, current len 50"), (.info, "start take snapshot"), (.info, "snapshot finished in "),
      (.info, "wrote 1 items, new len 51, cost ")], true, true, true) := by decide +kernel

end Mmkv.CoreText
