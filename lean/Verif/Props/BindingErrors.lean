import Verif.Props.Failure
import Verif.Props.Bindings
/-!
# C83: what a call through a binding reports
-/

namespace Mmkv
open Spec Inst
variable {ι : Type}

namespace Kotlin

/-- The methods of `MMKV.kt` that change the store. -/
inductive Method where
  | put | delete | clearData
deriving DecidableEq, Repr

/-- What MMKV.kt says a method throws: `@Throws(NativeException::class)` for `putX` and `delete` (MMKV.kt:55, 209); nothing for `clearData`
(212).  `KeyNotFoundException` and `NativeException` are siblings (Exceptions.kt): who catches the one does not catch the other. -/
def Method.declared : Method → Option (Res Unit)
  | .put => some .native
  | .delete => some .native
  | .clearData => none

/-- What a Kotlin caller sees, given what the store returned. -/
def Method.result : Method → Out Unit → Res Unit
  | .put => putResult
  | .delete => deleteResult
  | .clearData => clearResult

end Kotlin

/-! ### When the store returns an error -/

/-- Only a poisoned store, or one whose background thread has died, is closed between calls. -/
def Inst.Fell (s : Inst ι) : Prop := s.phase = .idle → s.valid = false → s.poisoned = false → s.lp.io = .dead

theorem Inst.fell_step {codecs : ι → Codec} {s s' : Inst ι} {e : Ev ι} {r : Option (Out Unit)} (hf : s.Fell) (hw : s.Waits)
    (hsh : Looper.Shut s.lp) (h : Inst.step codecs s e = some (s', r)) : s'.Fell := by
  have hfresh : ∀ {i : ι} {p : Nat} {f : Bytes} {u : Nat} {q : Option Nat} {x : Inst ι}, openAt codecs i p f u q = some x → x.valid = true := by
    intro i p f u q x hx
    unfold openAt at hx
    split at hx
    · cases hx
    · injection hx with hx; subst hx; rfl
  have hsend : s.lp.sender = true → (Looper.send s.lp).2 = false → s.lp.io = .dead := by
    intro hs hf
    rcases (Looper.send_same s.lp).2.2.2 hf hs with hd | hd
    · exact hd
    · rw [hsh.2 hd] at hs; cases hs
  cases e with
  | put key token bytes =>
    simp only [Inst.step] at h
    repeat' split at h
    all_goals first
      | cases h; done
      | (injection h with h; injection h with h1 h2; subst h1; first | exact hf | exact fun hi => by cases hi)
  | delete key =>
    simp only [Inst.step] at h
    repeat' split at h
    all_goals first
      | cases h; done
      | (injection h with h; injection h with h1 h2; subst h1; first | exact hf | exact fun hi => by cases hi)
  | clear =>
    simp only [Inst.step] at h
    repeat' split at h
    all_goals first
      | cases h; done
      | (injection h with h; injection h with h1 h2; subst h1; first | exact hf | exact fun hi => by cases hi)
  | drop =>
    simp only [Inst.step] at h
    split at h
    · cases h
    · injection h with h; injection h with h1 h2; subst h1
      exact fun hi => by cases hi
  | io o =>
    simp only [Inst.step] at h
    split at h
    · cases h
    · rename_i lp hlp
      injection h with h; injection h with h1 h2; subst h1
      intro hi hv hp
      have := hf hi hv hp
      simp [Looper.ioStep, this] at hlp
  | api i =>
    simp only [Inst.step] at h
    split at h
    · cases h
    · cases h
    · injection h with h; injection h with h1 h2; subst h1; exact fun hi => by cases hi
    · rename_i hp
      injection h with h; injection h with h1 h2; subst h1
      intro _ hv
      have := hw.out (.inl hp)
      simp only at hv
      rw [this] at hv; cases hv
    · injection h with h; injection h with h1 h2; subst h1; exact fun hi => by cases hi
    · rename_i hp
      split at h <;> (injection h with h; injection h with h1 h2; subst h1)
      · exact fun hi => by cases hi
      · rename_i hok
        intro _ _ _
        simp only
        rw [(Looper.send_same s.lp).2.1]
        exact hsend (hw.clrSender (by simp [hp])) (by simpa using hok)
    · rename_i hp
      split at h <;> (injection h with h; injection h with h1 h2; subst h1)
      · exact fun hi => by cases hi
      · rename_i hok
        intro _ _ _
        simp only
        rw [(Looper.quit_same s.lp).2.1]
        rcases (Looper.quit_same s.lp).2.2.2 (by simpa using hok) with hd | hd
        · exact hd
        · have := hsh.2 hd; rw [hw.clrSender (by simp [hp])] at this; cases this
    · split at h
      · injection h with h; injection h with h1 h2; subst h1; exact fun hi => by cases hi
      · split at h
        · rename_i hd
          injection h with h; injection h with h1 h2; subst h1
          exact fun _ _ _ => hd
        · cases h
    · split at h
      · injection h with h; injection h with h1 h2; subst h1
        exact fun _ _ hp => by cases hp
      · rename_i s1 hs1
        have hv := hfresh hs1
        split at h
        · injection h with h; injection h with h1 h2; subst h1
          exact fun _ hv' => by rw [hv] at hv'; cases hv'
        · split at h
          · injection h with h; injection h with h1 h2; subst h1
            exact fun _ hv' => by rw [hv] at hv'; cases hv'
          · split at h
            · injection h with h; injection h with h1 h2; subst h1
              exact fun _ _ hp => by cases hp
            · cases h

theorem Inst.fell_run {codecs : ι → Codec} {es : List (Ev ι)} {s s' : Inst ι} {rs : List (Out Unit)} (hf : s.Fell) (hw : s.Waits)
    (hs : Looper.Shut s.lp) (h : run codecs s es = some (s', rs)) : s'.Fell := by
  induction es generalizing s rs with
  | nil => simp only [run, Option.some.injEq, Prod.mk.injEq] at h; obtain ⟨rfl, _⟩ := h; exact hf
  | cons e es ih =>
    unfold run at h
    split at h
    · cases h
    · rename_i s1 r1 hs1
      split at h
      · cases h
      · rename_i s2 rs2 h2
        injection h with h; injection h with h3 h4; subst h3
        exact ih (Inst.fell_step hf hw hs hs1) (hw.step hs1) (Inst.shut_step hs hs1) h2

/-- In every state a store can get to, a call that returns an error does so because the lock is poisoned or the background thread has
died. -/
theorem err_means_dead {codecs : ι → Codec} {i : ι} {page : Nat} {file : Bytes} {u : Nat} {q : Option Nat} {s0 s s' : Inst ι}
    {es : List (Ev ι)} {rs : List (Out Unit)} (h0 : openAt codecs i page file u q = some s0)
    (hr : run codecs s0 es = some (s, rs)) {e : Ev ι} {er : Error} (hs : step codecs s e = some (s', some (.err er))) :
    s.poisoned = true ∨ s.lp.io = .dead := by
  have hf0 : s0.Fell := by
    intro _ hv
    unfold openAt at h0
    split at h0
    · cases h0
    · injection h0 with h0; subst h0; cases hv
  have hf := Inst.fell_run hf0 (.fresh h0) (Inst.shut_fresh h0) hr
  rcases C34_partial h0 hr hs with rfl | hd
  · cases hp : s'.poisoned with
    | true => exact .inl rfl
    | false =>
      right
      cases e with
      | put key token bytes =>
        simp only [Inst.step, hp] at hs
        split at hs
        · cases hs
        rename_i hc
        split at hs
        · rename_i hc; cases hc
        split at hs
        · rename_i hv
          exact hf (by simpa using fun h => hc (.inl h)) hv hp
        · injection hs with hs; injection hs with h1 h2; cases h2
      | delete key =>
        simp only [Inst.step, hp] at hs
        split at hs
        · cases hs
        rename_i hc
        split at hs
        · rename_i hc; cases hc
        split at hs
        · rename_i hv
          exact hf (by simpa using hc) hv hp
        split at hs <;> (injection hs with hs; injection hs with h1 h2; cases h2)
      | clear =>
        simp only [Inst.step, hp] at hs
        split at hs
        · cases hs
        split at hs
        · rename_i hc; cases hc
        split at hs <;> (injection hs with hs; injection hs with h1 h2; cases h2)
      | drop =>
        simp only [Inst.step] at hs
        split at hs
        · cases hs
        · injection hs with hs; injection hs with h1 h2; cases h2
      | io o =>
        simp only [Inst.step] at hs
        split at hs
        · cases hs
        · injection hs with hs; injection hs with h1 h2; cases h2
      | api i =>
        -- a step of a call under way changes the phase
        exfalso
        simp only [Inst.step] at hs
        split at hs
        · cases hs
        · cases hs
        · injection hs with hs; injection hs with h1 h2; cases h2
        · rename_i hph
          injection hs with hs; injection hs with h1 h2
          have := congrArg Inst.phase h1; rw [hph] at this; cases this
        · injection hs with hs; injection hs with h1 h2; cases h2
        · rename_i hph
          split at hs <;> (injection hs with hs; injection hs with h1 h2)
          · cases h2
          · have := congrArg Inst.phase h1; rw [hph] at this; cases this
        · rename_i hph
          split at hs <;> (injection hs with hs; injection hs with h1 h2)
          · cases h2
          · have := congrArg Inst.phase h1; rw [hph] at this; cases this
        · rename_i hph
          split at hs
          · injection hs with hs; injection hs with h1 h2; cases h2
          · split at hs
            · injection hs with hs; injection hs with h1 h2
              have := congrArg Inst.phase h1; rw [hph] at this; cases this
            · cases hs
        · split at hs
          · injection hs with hs; injection hs with h1 h2; cases h2
          · split at hs
            · injection hs with hs; injection hs with h1 h2; cases h2
            · split at hs
              · injection hs with hs; injection hs with h1 h2; cases h2
              · split at hs
                · injection hs with hs; injection hs with h1 h2; cases h2
                · cases hs
  · exact .inr hd

/-! ### C83 -/

/-- **C83 is false of this program**: on every open store whose background thread has died, `delete` of a key that is there throws
`KeyNotFoundException`, not the `NativeException` it declares; and the key is gone. -/
theorem C83_refuted {codecs : ι → Codec} {s : Inst ι} (hi : s.phase = .idle) (hp : s.poisoned = false) (hv : s.valid = true)
    (hd : s.lp.io = .dead) (hsd : s.lp.sender = true) (key : String) (t : Ty) {v : t.Val} (hk : s.get key t = .ok v) (i : ι) :
    ∃ s' r, run codecs s [.delete key, .api i, .api i] = some (s', [r]) ∧ Kotlin.Method.delete.result r = .keyNotFound ∧
      some (Kotlin.Method.delete.result r) ≠ Kotlin.Method.delete.declared ∧ Kotlin.get s key t = .value (Kotlin.ofNative t v) ∧
      Kotlin.get s' key t = .keyNotFound := by
  have hk' : (s.kv.get key).isSome = true := by
    simp only [Inst.get, getAs, hp, hv] at hk
    cases h : s.kv.get key with
    | none => simp [h] at hk
    | some b => rfl
  obtain ⟨s', h1, h2⟩ := C34_refuted_delete (codecs := codecs) hi hp hv hd hsd key hk' i
  refine ⟨s', _, h1, rfl, by decide, by simp only [Kotlin.get, hk], ?_⟩
  have := h2 t.token (fromBytes t)
  simp only [Kotlin.get, Inst.get, this]

/-- **C83 is false of this program**, `clearData`: on such a store it ends the process, from Kotlin and from Swift. -/
theorem C83_refuted_clear {codecs : ι → Codec} {s : Inst ι} (hi : s.phase = .idle) (hp : s.poisoned = false) (hv : s.valid = true)
    (hd : s.lp.io = .dead) (hsd : s.lp.sender = true) (i : ι) :
    ∃ s' r, run codecs s [.clear, .api i, .api i] = some (s', [r]) ∧ Kotlin.Method.clearData.result r = .crash ∧
      Swift.clearResult r = .crash := by
  have h2 : (Looper.push s.lp .remove).sender = true := by rw [(Looper.push_same _ _).1, hsd]
  have h3 : (Looper.push s.lp .remove).io = .dead := by rw [(Looper.push_same _ _).2.1, hd]
  exact ⟨_, _, by simp [run, step, hi, hp, hv, Looper.send, h2, h3]; exact ⟨rfl, rfl⟩, rfl, rfl⟩

/-- **C83**, end to end: on a fresh directory a put of a value that fits and one of a value that does not (both return normally); then
`delete` of the first throws `KeyNotFoundException`, or `clearData` ends the process. -/
theorem C83_refuted_end_to_end : ∃ s rs, fresh64 (fullPut "z" 0 [0, 0, 0, 5] ++ fullPut "k" 6 (List.replicate 200 7)) = some (s, rs) ∧
    rs = [.ok (), .ok ()] ∧ s.get "z" .i32 = .ok 5#32 ∧
    (∃ s' r, run plain s [.delete "z", .api (), .api ()] = some (s', [r]) ∧ Kotlin.Method.delete.result r = .keyNotFound) ∧
    ∃ s' r, run plain s [.clear, .api (), .api ()] = some (s', [r]) ∧ Kotlin.Method.clearData.result r = .crash := by
  have h : passes (fresh64 (fullPut "z" 0 [0, 0, 0, 5] ++ fullPut "k" 6 (List.replicate 200 7))) (fun s rs =>
      decide (rs = [.ok (), .ok ()] ∧ s.getAs "z" 0 (numFromBytes 4 32) = .ok 5#32 ∧ s.phase = .idle ∧ s.poisoned = false ∧ s.valid = true ∧
        s.lp.io = .dead ∧ s.lp.sender = true)) = true := by decide +kernel
  obtain ⟨s, rs, h1, h2⟩ := exists_of_passes h
  simp only [decide_eq_true_eq] at h2
  obtain ⟨h2, h3, h4, h5, h6, h7, h8⟩ := h2
  obtain ⟨s1, r1, g1, g2, _⟩ := C83_refuted (codecs := plain) h4 h5 h6 h7 h8 "z" .i32 (v := 5#32) h3 ()
  obtain ⟨s2, r2, q1, q2, _⟩ := C83_refuted_clear (codecs := plain) h4 h5 h6 h7 h8 ()
  exact ⟨s, rs, h1, h2, h3, ⟨s1, r1, g1, g2⟩, s2, r2, q1, q2⟩

/-- **C83**, `putX`: what a Kotlin caller sees says what happened, always: it returns if and only if the store returned `Ok`; every error is
the declared exception. -/
theorem C83_put (r : Out Unit) : (Kotlin.Method.put.result r = .value () ↔ r = .ok ()) ∧
    (∀ e, r = .err e → some (Kotlin.Method.put.result r) = Kotlin.Method.put.declared) ∧
    Kotlin.Method.put.result r ≠ .keyNotFound := by
  cases r <;> simp [Kotlin.Method.result, Kotlin.putResult, Kotlin.Method.declared]

/-- **C83**, nothing goes unnoticed: whatever the store returned, a Kotlin or Swift call that changes the store returns normally if and
only if it was `Ok`. -/
theorem C83_noticed (m : Kotlin.Method) (r : Out Unit) (h : Ffi.Heap) (t : Ty) :
    (m.result r = .value () ↔ r = .ok ()) ∧ ((Swift.unitResult h t r).1 = .success () ↔ r = .ok ()) ∧
      (Swift.clearResult r = .success () ↔ r = .ok ()) := by
  refine ⟨by cases m <;> cases r <;> simp [Kotlin.Method.result, Kotlin.putResult, Kotlin.deleteResult, Kotlin.clearResult], ?_,
    by cases r <;> simp [Swift.clearResult]⟩
  unfold Swift.unitResult
  have hret : Ffi.unitRet h t r = (Ffi.Outcome.done t r).ret h := rfl
  rw [hret]
  cases hr : (Ffi.Outcome.done t r).ret h with
  | abort =>
    simp only [Ffi.ret_abort] at hr
    simp only [reduceCtorEq, false_iff]
    rintro rfl
    simp [Ffi.Outcome.shows] at hr
  | ok h' p =>
    obtain ⟨fp, v, hv, hf, ho⟩ := Ffi.ret_spec hr
    have hlook := (ho h' fun _ _ => rfl).1
    have hfree := (ho h' fun _ _ => rfl).2
    cases r with
    | ok a =>
      simp only [Ffi.Outcome.shows, Option.some.injEq] at hv
      subst hv
      have hlook' : Ffi.look h' p t = some .nothing := hlook
      simp only [hlook', hfree]
    | err e =>
      simp only [Ffi.Outcome.shows, Option.map_eq_some_iff] at hv
      obtain ⟨d, _, rfl⟩ := hv
      have hlook' : Ffi.look h' p t = some (.error d.1 (d.2.map strBytes)) := hlook
      simp only [hlook', hfree]
      simp
    | panic => simp [Ffi.Outcome.shows] at hv

/-- **C83**, Swift: an error that has a code arrives as a failure with the documented code and reason, and what the call had taken from
the heap is given back. -/
theorem C83_swift_code (h : Ffi.Heap) (t : Ty) (e : Error) {code : Int} {reason : Option String} (hd : Ffi.documented e = some (code, reason)) :
    (Swift.unitResult h t (.err e)).1 = .failure code (reason.map strBytes) := by
  unfold Swift.unitResult
  have hret : Ffi.unitRet h t (.err e) = (Ffi.Outcome.done t (.err e)).ret h := rfl
  rw [hret]
  cases hr : (Ffi.Outcome.done t (.err e)).ret h with
  | abort => simp [Ffi.ret_abort, Ffi.Outcome.shows, hd] at hr
  | ok h' p =>
    obtain ⟨fp, v, hv, hf, ho⟩ := Ffi.ret_spec hr
    have hlook := (ho h' fun _ _ => rfl).1
    have hfree := (ho h' fun _ _ => rfl).2
    simp only [Ffi.Outcome.shows, hd, Option.map_some, Option.some.injEq] at hv
    subst hv
    have hlook' : Ffi.look h' p t = some (.error code (reason.map strBytes)) := hlook
    simp only [hlook', hfree]

/-- **C83**, what is true of `delete` and `clearData`: in every state a store can get to with its background thread alive and its lock not
poisoned, no mutating call returns an error - so nothing is thrown at all - and a Kotlin or Swift call that comes back does so normally,
or the reopening in `clear_data` panicked.  Missing from C83: a dead thread (`C83_refuted`, `C83_refuted_clear`), a poisoned lock. -/
theorem C83_partial {codecs : ι → Codec} {i : ι} {page : Nat} {file : Bytes} {u : Nat} {q : Option Nat} {s0 s s' : Inst ι}
    {es : List (Ev ι)} {rs : List (Out Unit)} (h0 : openAt codecs i page file u q = some s0)
    (hr : run codecs s0 es = some (s, rs)) (hp : s.poisoned = false) (hd : s.lp.io ≠ .dead) {e : Ev ι} {r : Out Unit}
    (hs : step codecs s e = some (s', some r)) :
    (r = .ok () ∧ (∀ m : Kotlin.Method, m.result r = .value ()) ∧ (∀ h t, (Swift.unitResult h t r).1 = .success ()) ∧
        Swift.clearResult r = .success ()) ∨
      (r = .panic ∧ s.phase = .clrOpen) := by
  cases r with
  | ok a =>
    left
    exact ⟨rfl, fun m => (C83_noticed m _ {} .i32).1.2 rfl, fun h t => (C83_noticed .put _ h t).2.1.2 rfl, rfl⟩
  | err er =>
    rcases err_means_dead h0 hr hs with h | h
    · rw [hp] at h; cases h
    · exact absurd h hd
  | panic =>
    refine .inr ⟨rfl, ?_⟩
    cases e with
    | put key token bytes =>
      simp only [Inst.step] at hs
      repeat' split at hs
      all_goals first | cases hs; done | (injection hs with hs; injection hs with h1 h2; cases h2)
    | delete key =>
      simp only [Inst.step] at hs
      repeat' split at hs
      all_goals first | cases hs; done | (injection hs with hs; injection hs with h1 h2; cases h2)
    | clear =>
      simp only [Inst.step] at hs
      repeat' split at hs
      all_goals first | cases hs; done | (injection hs with hs; injection hs with h1 h2; cases h2)
    | drop =>
      simp only [Inst.step] at hs
      repeat' split at hs
      all_goals first | cases hs; done | (injection hs with hs; injection hs with h1 h2; cases h2)
    | io o =>
      simp only [Inst.step] at hs
      repeat' split at hs
      all_goals first | cases hs; done | (injection hs with hs; injection hs with h1 h2; cases h2)
    | api i =>
      simp only [Inst.step] at hs
      split at hs
      · cases hs
      · cases hs
      · injection hs with hs; injection hs with h1 h2; cases h2
      · injection hs with hs; injection hs with h1 h2
        split at h2 <;> cases h2
      · injection hs with hs; injection hs with h1 h2; cases h2
      · split at hs <;> (injection hs with hs; injection hs with h1 h2; cases h2)
      · split at hs <;> (injection hs with hs; injection hs with h1 h2; cases h2)
      · repeat' split at hs
        all_goals first | cases hs; done | (injection hs with hs; injection hs with h1 h2; cases h2)
      · assumption

/-- The hypotheses of `C83_partial` are met: after a put on a fresh directory, a delete that does something, at the step that returns. -/
example : ∃ s rs s' r, fresh64 (fullPut "a" 0 [0, 0, 0, 5] ++ [.delete "a", .api ()]) = some (s, rs) ∧ s.poisoned = false ∧ s.lp.io ≠ .dead ∧
    step plain s (.api ()) = some (s', some r) ∧ r = .ok () := by
  have h : passes (fresh64 (fullPut "a" 0 [0, 0, 0, 5] ++ [.delete "a", .api ()])) (fun s _ =>
      decide (s.poisoned = false ∧ s.lp.io ≠ .dead) && match step plain s (.api ()) with
        | some (_, some r) => decide (r = .ok ())
        | _ => false) = true := by decide +kernel
  obtain ⟨s, rs, h1, h2⟩ := exists_of_passes h
  rw [Bool.and_eq_true] at h2
  obtain ⟨h2, h3⟩ := h2
  simp only [decide_eq_true_eq] at h2
  split at h3
  · rename_i s' r hst
    exact ⟨s, rs, s', r, h1, h2.1, h2.2, hst, by simpa using h3⟩
  · cases h3

end Mmkv
