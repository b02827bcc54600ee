import Verif.Props.Deadlock
import Verif.Props.Size
import Verif.Props.Ffi
/-!
# After a background failure: C34, C35
-/

namespace Mmkv
open Spec Inst
variable {ι : Type}

/-! ### The thread leaves in good order only after the channel has been closed -/

/-- `Quit` is sent, and the thread leaves, only once the sender has been taken. -/
def Looper.Shut {O J T : Type} (s : Looper.St O J T) : Prop :=
  (Looper.Signal.quit ∈ s.chan → s.sender = false) ∧ (s.io = .exited → s.sender = false)

theorem Looper.Shut.push {O J T : Type} {s : Looper.St O J T} (h : Looper.Shut s) (j : J) : Looper.Shut (Looper.push s j) := by
  unfold Looper.push
  split <;> exact ⟨h.1, h.2⟩

theorem Looper.Shut.send {O J T : Type} {s : Looper.St O J T} (h : Looper.Shut s) : Looper.Shut (Looper.send s).1 := by
  unfold Looper.send
  split
  · split
    · exact ⟨h.1, h.2⟩
    · refine ⟨fun hm => h.1 ?_, h.2⟩
      simpa using hm
  · exact h

theorem Looper.Shut.quit {O J T : Type} {s : Looper.St O J T} (h : Looper.Shut s) : Looper.Shut (Looper.quitSend s).1 := by
  unfold Looper.quitSend
  split
  · split <;> exact ⟨fun _ => rfl, fun _ => rfl⟩
  · exact h

theorem Looper.Shut.io {O J T : Type} {exec : O → J → T → Run T} {o : O} {s s' : Looper.St O J T} (h : Looper.Shut s)
    (hs : Looper.ioStep exec o s = some s') : Looper.Shut s' := by
  unfold Looper.ioStep at hs
  split at hs
  · split at hs
    · rename_i hc
      injection hs with hs; subst hs
      exact ⟨fun hm => h.1 (by rw [hc]; exact List.mem_cons_of_mem _ hm), by simp⟩
    · rename_i hc
      injection hs with hs; subst hs
      have := h.1 (by rw [hc]; simp)
      exact ⟨fun _ => this, fun _ => this⟩
    · split at hs
      · cases hs
      · rename_i hsd
        injection hs with hs; subst hs
        have : s.sender = false := by simpa using hsd
        exact ⟨fun _ => this, fun _ => this⟩
  · injection hs with hs; subst hs; exact ⟨h.1, by simp⟩
  · split at hs
    · injection hs with hs; subst hs; exact ⟨h.1, by simp⟩
    · rename_i hio _ _ _
      split at hs <;> (injection hs with hs; subst hs)
      · exact ⟨h.1, h.2⟩
      · exact ⟨h.1, by simp⟩
  · injection hs with hs; subst hs; exact ⟨h.1, by simp⟩
  · cases hs
  · cases hs

theorem Inst.shut_fresh {codecs : ι → Codec} {i : ι} {p : Nat} {f : Bytes} {u : Nat} {q : Option Nat} {x : Inst ι}
    (hx : Inst.openAt codecs i p f u q = some x) : Looper.Shut x.lp := by
  unfold Inst.openAt at hx
  split at hx
  · cases hx
  · injection hx with hx; subst hx
    exact ⟨by simp [Looper.new], by simp [Looper.new]⟩

theorem Inst.shut_step {codecs : ι → Codec} {s s' : Inst ι} {e : Ev ι} {r : Option (Out Unit)} (hw : Looper.Shut s.lp)
    (h : Inst.step codecs s e = some (s', r)) : Looper.Shut s'.lp := by
  cases e with
  | put key token bytes =>
    simp only [Inst.step] at h
    repeat' split at h
    all_goals first | cases h; done | (injection h with h; injection h with h1 h2; subst h1; exact hw)
  | delete key =>
    simp only [Inst.step] at h
    repeat' split at h
    all_goals first | cases h; done | (injection h with h; injection h with h1 h2; subst h1; exact hw)
  | clear =>
    simp only [Inst.step] at h
    repeat' split at h
    all_goals first | cases h; done | (injection h with h; injection h with h1 h2; subst h1; exact hw)
  | drop =>
    simp only [Inst.step] at h
    split at h
    · cases h
    · injection h with h; injection h with h1 h2; subst h1
      exact ⟨fun _ => rfl, fun _ => rfl⟩
  | io o =>
    simp only [Inst.step] at h
    split at h
    · cases h
    · rename_i lp hlp
      injection h with h; injection h with h1 h2; subst h1
      exact hw.io hlp
  | api i =>
    simp only [Inst.step] at h
    split at h
    · cases h
    · cases h
    · injection h with h; injection h with h1 h2; subst h1; exact hw.push _
    · injection h with h; injection h with h1 h2; subst h1; exact hw.send
    · injection h with h; injection h with h1 h2; subst h1; exact hw.push _
    · split at h <;> (injection h with h; injection h with h1 h2; subst h1; exact hw.send)
    · split at h <;> (injection h with h; injection h with h1 h2; subst h1; exact hw.quit)
    · split at h
      · injection h with h; injection h with h1 h2; subst h1; exact hw
      · split at h
        · injection h with h; injection h with h1 h2; subst h1; exact hw
        · cases h
    · split at h
      · injection h with h; injection h with h1 h2; subst h1; exact hw
      · rename_i s1 hs1
        split at h
        · injection h with h; injection h with h1 h2; subst h1; exact Inst.shut_fresh hs1
        · split at h
          · injection h with h; injection h with h1 h2; subst h1; exact Inst.shut_fresh hs1
          · split at h
            · injection h with h; injection h with h1 h2; subst h1; have := Inst.shut_fresh hs1; exact this
            · cases h

/-- Both invariants hold of every store a history leads to. -/
theorem Inst.run_waits {codecs : ι → Codec} {es : List (Ev ι)} {s s' : Inst ι} {rs : List (Out Unit)} (hw : s.Waits)
    (hs : Looper.Shut s.lp) (h : run codecs s es = some (s', rs)) : s'.Waits ∧ Looper.Shut s'.lp := by
  induction es generalizing s rs with
  | nil => simp only [run, Option.some.injEq, Prod.mk.injEq] at h; obtain ⟨rfl, _⟩ := h; exact ⟨hw, hs⟩
  | cons e es ih =>
    unfold run at h
    split at h
    · cases h
    · rename_i s1 r1 hs1
      split at h
      · cases h
      · rename_i s2 rs2 h2
        injection h with h; injection h with h3 h4; subst h3
        exact ih (hw.step hs1) (Inst.shut_step hs hs1) h2

/-! ### C34 -/

/-- **C34 is false of this program**: whenever the background thread of an open store has died, every `put` returns `Err`
and yet `get` then shows the new value. -/
theorem C34_refuted {codecs : ι → Codec} {s : Inst ι} (hi : s.phase = .idle) (hp : s.poisoned = false) (hv : s.valid = true)
    (hd : s.lp.io = .dead) (hsd : s.lp.sender = true) (key : String) (token : BitVec 32) (bytes : Bytes)
    (ht : tokenOk token = true) (i : ι) :
    ∃ s', run codecs s [.put key token bytes, .api i, .api i] = some (s', [.err ioErr]) ∧
      ∀ {α : Type} (f : Bytes → Out α), s'.getAs key token f = f bytes := by
  have h2 : (Looper.push s.lp (.write (Buffer.ofRaw key token bytes) (s.kv.get key).isSome)).sender = true := by
    rw [(Looper.push_same _ _).1, hsd]
  have h3 : (Looper.push s.lp (.write (Buffer.ofRaw key token bytes) (s.kv.get key).isSome)).io = .dead := by
    rw [(Looper.push_same _ _).2.1, hd]
  refine ⟨_, by simp [run, step, hi, hp, hv, ht, Looper.send, h2, h3]; rfl, ?_⟩
  intro α f
  simp only [getAs, KvMap.get_insert, Buffer.parseAs, Buffer.checkType, Buffer.ofRaw, Buffer.isDeleting]
  have : (token == deletedToken) = false := by
    simp only [beq_eq_false_iff_ne]
    rintro rfl
    simp [tokenOk, deletedToken, reserved] at ht
  simp [this]

/-- **C34**, the same for `delete`: it returns `Err`, yet the key is gone. -/
theorem C34_refuted_delete {codecs : ι → Codec} {s : Inst ι} (hi : s.phase = .idle) (hp : s.poisoned = false) (hv : s.valid = true)
    (hd : s.lp.io = .dead) (hsd : s.lp.sender = true) (key : String) (hk : (s.kv.get key).isSome = true) (i : ι) :
    ∃ s', run codecs s [.delete key, .api i, .api i] = some (s', [.err ioErr]) ∧
      ∀ {α : Type} (token : BitVec 32) (f : Bytes → Out α), s'.getAs key token f = .err .keyNotFound := by
  have h2 : (Looper.push s.lp (.write (Buffer.deleted key) true)).sender = true := by
    rw [(Looper.push_same _ _).1, hsd]
  have h3 : (Looper.push s.lp (.write (Buffer.deleted key) true)).io = .dead := by
    rw [(Looper.push_same _ _).2.1, hd]
  have h4 : (s.kv.get key).isNone = false := by
    cases h : s.kv.get key <;> simp [h] at hk ⊢
  refine ⟨_, by simp [run, step, hi, hp, hv, h4, Looper.send, h2, h3]; rfl, ?_⟩
  intro α token f
  simp [getAs, KvMap.get_erase]

/-- **C34**, end to end: such a store is one oversized `put` (C07) away, and the next `put` returns `Err` and takes effect. -/
theorem C34_refuted_end_to_end : ∃ s rs, fresh64 (fullPut "k" 6 (List.replicate 200 7) ++ [.put "z" 0 [0, 0, 0, 5], .api (), .api ()]) =
    some (s, rs) ∧ rs = [.ok (), .err ioErr] ∧ s.get "z" .i32 = .ok 5#32 := by
  have h : passes (fresh64 (fullPut "k" 6 (List.replicate 200 7) ++ [.put "z" 0 [0, 0, 0, 5], .api (), .api ()])) (fun s rs =>
      decide (rs = [.ok (), .err ioErr] ∧ s.getAs "z" 0 (numFromBytes 4 32) = .ok 5#32)) = true := by decide +kernel
  obtain ⟨s, rs, h1, h2⟩ := exists_of_passes h
  simp only [decide_eq_true_eq] at h2
  exact ⟨s, rs, h1, h2⟩

/-- **C34**, what is true: in every state a store can get to, a call that returns `Err` either has changed nothing, or the
background thread has died.  Missing from C34: the second case (`C34_refuted`). -/
theorem C34_partial {codecs : ι → Codec} {i : ι} {page : Nat} {file : Bytes} {u : Nat} {q : Option Nat} {s0 s s' : Inst ι}
    {es : List (Ev ι)} {rs : List (Out Unit)} (h0 : openAt codecs i page file u q = some s0)
    (hr : run codecs s0 es = some (s, rs)) {e : Ev ι} {er : Error} (hs : step codecs s e = some (s', some (.err er))) :
    s' = s ∨ s.lp.io = .dead := by
  obtain ⟨hw, hsh⟩ := Inst.run_waits (.fresh h0) (Inst.shut_fresh h0) hr
  have hsend : ∀ b, s.lp.sender = b → b = true → (Looper.send s.lp).2 = false → s.lp.io = .dead := by
    rintro b hb rfl hf
    rcases (Looper.send_same s.lp).2.2.2 hf hb with hd | hd
    · exact hd
    · have := hsh.2 hd; rw [this] at hb; cases hb
  cases e with
  | put key token bytes =>
    simp only [Inst.step] at hs
    split at hs
    · cases hs
    split at hs
    · injection hs with hs; injection hs with h1 h2; exact .inl h1.symm
    split at hs
    · injection hs with hs; injection hs with h1 h2; exact .inl h1.symm
    injection hs with hs; injection hs with h1 h2; cases h2
  | delete key =>
    simp only [Inst.step] at hs
    split at hs
    · cases hs
    split at hs
    · injection hs with hs; injection hs with h1 h2; exact .inl h1.symm
    split at hs
    · injection hs with hs; injection hs with h1 h2; exact .inl h1.symm
    split at hs
    · injection hs with hs; injection hs with h1 h2; cases h2
    injection hs with hs; injection hs with h1 h2; cases h2
  | clear =>
    simp only [Inst.step] at hs
    split at hs
    · cases hs
    split at hs
    · injection hs with hs; injection hs with h1 h2; exact .inl h1.symm
    split at hs <;> (injection hs with hs; injection hs with h1 h2; cases h2)
  | drop =>
    simp only [Inst.step] at hs
    split at hs
    · cases hs
    · injection hs with hs; injection hs with h1 h2; cases h2
  | io o =>
    simp only [Inst.step] at hs
    split at hs
    · cases hs
    · injection hs with hs; injection hs with h1 h2; cases h2
  | api i =>
    simp only [Inst.step] at hs
    split at hs
    · cases hs
    · cases hs
    · injection hs with hs; injection hs with h1 h2; cases h2
    · rename_i hp
      right
      injection hs with hs; injection hs with h1 h2
      cases hok : (Looper.send s.lp).2 with
      | true => rw [hok] at h2; simp at h2
      | false => exact hsend _ rfl (hw.sender (hw.out (.inl hp)) (by simp [hp])) hok
    · injection hs with hs; injection hs with h1 h2; cases h2
    · rename_i hp
      right
      cases hok : (Looper.send s.lp).2 with
      | true => simp only [hok, if_true] at hs; injection hs with hs; injection hs with h1 h2; cases h2
      | false => exact hsend _ rfl (hw.clrSender (by simp [hp])) hok
    · rename_i hp
      right
      cases hok : (Looper.quitSend s.lp).2 with
      | true => simp only [hok, if_true] at hs; injection hs with hs; injection hs with h1 h2; cases h2
      | false =>
        rcases (Looper.quit_same s.lp).2.2.2 hok with hd | hd
        · exact hd
        · have := hsh.2 hd; rw [hw.clrSender (by simp [hp])] at this; cases this
    · split at hs
      · injection hs with hs; injection hs with h1 h2; cases h2
      · split at hs
        · rename_i hd; exact .inr hd
        · cases hs
    · split at hs
      · injection hs with hs; injection hs with h1 h2; cases h2
      · split at hs
        · injection hs with hs; injection hs with h1 h2; cases h2
        · split at hs
          · injection hs with hs; injection hs with h1 h2; cases h2
          · split at hs
            · injection hs with hs; injection hs with h1 h2; cases h2
            · cases hs

/-! ### C35 -/

/-- **C35 is false of this program**: on every open store whose background thread has died, a `put` through the C interface
aborts the process - whatever the heap, the key and the value - instead of returning an error object. -/
theorem C35_refuted {codecs : ι → Codec} {s : Inst ι} (hi : s.phase = .idle) (hp : s.poisoned = false) (hv : s.valid = true)
    (hd : s.lp.io = .dead) (hsd : s.lp.sender = true) (key : String) (t : Ty) (v : t.Val) (i : ι) (h : Ffi.Heap) :
    ∃ s' r, run codecs s [.put key t.token (toBytes t v), .api i, .api i] = some (s', [r]) ∧
      (Ffi.Outcome.done t r).ret h = .abort := by
  obtain ⟨s', h1, _⟩ := C34_refuted (codecs := codecs) hi hp hv hd hsd key t.token (toBytes t v) (by cases t <;> rfl) i
  exact ⟨s', _, h1, rfl⟩

/-- **C35**, end to end: two `put`s on a fresh directory; the second aborts a C caller. -/
theorem C35_refuted_end_to_end : ∃ s r, fresh64 (fullPut "k" 6 (List.replicate 200 7) ++ [.put "z" 0 [0, 0, 0, 5], .api (), .api ()]) =
    some (s, [.ok (), r]) ∧ ∀ h, (Ffi.Outcome.done .i32 r).ret h = .abort := by
  obtain ⟨s, rs, h1, rfl, _⟩ := C34_refuted_end_to_end
  exact ⟨s, _, h1, fun _ => rfl⟩

/-- **C35**, a store whose lock is poisoned (C31) aborts a C caller that only reads. -/
theorem C35_refuted_poisoned {s : Inst ι} (hp : s.poisoned = true) (key : String) (t : Ty) (h : Ffi.Heap) :
    (Ffi.Outcome.get t (s.get key t)).ret h = .abort := by
  simp only [Inst.get, getAs, hp, if_true]; rfl

theorem fromBytes_err {t : Ty} {bs : Bytes} {e : Error} (h : fromBytes t bs = .err e) : e = .dataInvalid := by
  have hnum : ∀ n w, numFromBytes n w bs = .err e → e = .dataInvalid := by
    intro n w h; unfold numFromBytes at h; split at h <;> cases h
  have harr : ∀ n w, arrFromBytes n w bs = .err e → e = .dataInvalid := by
    intro n w h; unfold arrFromBytes at h; split at h <;> cases h; rfl
  cases t
  · exact hnum _ _ h
  · simp only [fromBytes, strFromBytes] at h; split at h <;> cases h; rfl
  · simp only [fromBytes] at h; unfold boolFromBytes at h; split at h <;> cases h
  · exact hnum _ _ h
  · exact hnum _ _ h
  · exact hnum _ _ h
  · cases h
  · exact harr _ _ h
  · exact harr _ _ h
  · exact harr _ _ h
  · exact harr _ _ h

/-- **C35**, reading: on a store whose lock is not poisoned, every error `get` returns reaches a C caller as an error object
with its documented code and no reason; the call returns. -/
theorem C35_get_partial {s : Inst ι} (hp : s.poisoned = false) (key : String) (t : Ty) {e : Error} (he : s.get key t = .err e)
    (h : Ffi.Heap) :
    ∃ h' p code, (Ffi.Outcome.get t (s.get key t)).ret h = .ok h' p ∧ Ffi.documented e = some (code, none) ∧
      Ffi.look h' p t = some (.error code none) := by
  have hdoc : ∃ code, Ffi.documented e = some (code, none) := by
    simp only [Inst.get, getAs, hp, Bool.false_eq_true, if_false] at he
    split at he
    · cases he; exact ⟨_, rfl⟩
    split at he
    · cases he; exact ⟨_, rfl⟩
    · unfold Buffer.parseAs at he
      split at he
      · rename_i hc
        cases he
        unfold Buffer.checkType at hc
        split at hc
        · cases hc; exact ⟨_, rfl⟩
        split at hc
        · cases hc
        · cases hc; exact ⟨_, rfl⟩
      · rw [fromBytes_err he]; exact ⟨_, rfl⟩
  obtain ⟨code, hcode⟩ := hdoc
  rw [he]
  cases hr : (Ffi.Outcome.get t (.err e)).ret h with
  | abort =>
    rw [Ffi.ret_abort] at hr
    simp [Ffi.Outcome.shows, hcode] at hr
  | ok h' p =>
    obtain ⟨fp, v, hv, hf, ho⟩ := Ffi.ret_spec hr
    simp only [Ffi.Outcome.shows, hcode, Option.map_some, Option.some.injEq] at hv
    refine ⟨h', p, code, rfl, hcode, ?_⟩
    subst hv
    exact (ho h' fun _ _ => rfl).1

/-- **C35**, writing: in every state a store can get to with its thread alive and its lock not poisoned, what `put` and
`delete` return is `Ok` or `InstanceClosed`, and reaches a C caller as an empty result or as code 4.  Missing from C35: a
dead thread and a poisoned lock (`C35_refuted`, `C35_refuted_poisoned`). -/
theorem C35_put_partial {codecs : ι → Codec} {i : ι} {page : Nat} {file : Bytes} {u : Nat} {q : Option Nat} {s0 s s' : Inst ι}
    {es : List (Ev ι)} {rs : List (Out Unit)} (h0 : openAt codecs i page file u q = some s0)
    (hr : run codecs s0 es = some (s, rs)) (hp : s.poisoned = false) (hd : s.lp.io ≠ .dead) {e : Ev ι} {r : Out Unit}
    (hs : step codecs s e = some (s', some r))
    (hcall : (∃ k t b, e = .put k t b) ∨ (∃ k, e = .delete k) ∨ (s.phase = .send ∧ ∃ i, e = .api i)) (t : Ty) (h : Ffi.Heap) :
    ∃ h' p, (Ffi.Outcome.done t r).ret h = .ok h' p ∧
      ((r = .ok () ∧ Ffi.look h' p t = some .nothing) ∨
        (r = .err .instanceClosed ∧ Ffi.look h' p t = some (.error 4 none))) := by
  have hres : r = .ok () ∨ r = .err .instanceClosed := by
    cases hre : r with
    | ok a => exact .inl rfl
    | err er =>
      subst hre
      rcases hcall with ⟨k, t, b, rfl⟩ | ⟨k, rfl⟩ | ⟨hph, i', rfl⟩
      · simp only [Inst.step, hp, Bool.false_eq_true, if_false] at hs
        split at hs
        · cases hs
        split at hs
        · injection hs with hs; injection hs with h1 h2; cases h2; exact .inr rfl
        · injection hs with hs; injection hs with h1 h2; cases h2
      · simp only [Inst.step, hp, Bool.false_eq_true, if_false] at hs
        split at hs
        · cases hs
        split at hs
        · injection hs with hs; injection hs with h1 h2; cases h2; exact .inr rfl
        split at hs
        · injection hs with hs; injection hs with h1 h2; cases h2
        · injection hs with hs; injection hs with h1 h2; cases h2
      · rcases C34_partial h0 hr hs with heq | hdead
        · subst heq
          simp only [Inst.step, hph] at hs
          injection hs with hs; injection hs with h1 h2
          have := congrArg Inst.phase h1
          simp [hph] at this
        · exact absurd hdead hd
    | panic =>
      subst hre
      rcases hcall with ⟨k, t, b, rfl⟩ | ⟨k, rfl⟩ | ⟨hph, i', rfl⟩
      · simp only [Inst.step, hp, Bool.false_eq_true, if_false] at hs
        repeat' split at hs
        all_goals first | cases hs; done | (injection hs with hs; injection hs with h1 h2; cases h2)
      · simp only [Inst.step, hp, Bool.false_eq_true, if_false] at hs
        repeat' split at hs
        all_goals first | cases hs; done | (injection hs with hs; injection hs with h1 h2; cases h2)
      · simp only [Inst.step, hph] at hs
        injection hs with hs; injection hs with h1 h2
        split at h2 <;> cases h2
  cases hrr : (Ffi.Outcome.done t r).ret h with
  | abort =>
    rw [Ffi.ret_abort] at hrr
    rcases hres with rfl | rfl <;> simp [Ffi.Outcome.shows, Ffi.documented] at hrr
  | ok h' p =>
    obtain ⟨fp, v, hv, hf, ho⟩ := Ffi.ret_spec hrr
    have hlook := (ho h' fun _ _ => rfl).1
    refine ⟨h', p, rfl, ?_⟩
    rcases hres with rfl | rfl
    · simp only [Ffi.Outcome.shows, Option.some.injEq] at hv
      subst hv
      exact .inl ⟨rfl, hlook⟩
    · simp only [Ffi.Outcome.shows, Ffi.documented, Option.map_some, Option.map_none, Option.some.injEq] at hv
      subst hv
      exact .inr ⟨rfl, hlook⟩

/-! ### The hypotheses can be met -/

/-- The oversized `put` of C07 leads to a store as `C34_refuted`, `C34_refuted_delete` and `C35_refuted` ask for. -/
example : ∃ s rs, fresh64 (fullPut "k" 6 (List.replicate 200 7)) = some (s, rs) ∧ s.phase = .idle ∧ s.poisoned = false ∧
    s.valid = true ∧ s.lp.io = .dead ∧ s.lp.sender = true ∧ (s.kv.get "k").isSome = true := by
  have h : passes (fresh64 (fullPut "k" 6 (List.replicate 200 7))) (fun s _ =>
      decide (s.phase = .idle ∧ s.poisoned = false ∧ s.valid = true ∧ s.lp.io = .dead ∧ s.lp.sender = true ∧ (s.kv.get "k").isSome = true)) = true := by
    decide +kernel
  obtain ⟨s, rs, h1, h2⟩ := exists_of_passes h
  simp only [decide_eq_true_eq] at h2
  exact ⟨s, rs, h1, h2⟩

/-- A store whose thread is alive, where a `get` of another type fails and a `put` returns. -/
example : ∃ s rs, fresh64 [.put "a" 0 [0, 0, 0, 1], .api ()] = some (s, rs) ∧ s.phase = .send ∧ s.lp.io = .recv ∧ s.poisoned = false ∧
    s.getAs "a" 1 strFromBytes = .err .typeMissMatch := by
  have h : passes (fresh64 [.put "a" 0 [0, 0, 0, 1], .api ()]) (fun s _ =>
      decide (s.phase = .send ∧ s.lp.io = .recv ∧ s.poisoned = false ∧ s.getAs "a" 1 strFromBytes = .err .typeMissMatch)) = true := by
    decide +kernel
  obtain ⟨s, rs, h1, h2⟩ := exists_of_passes h
  simp only [decide_eq_true_eq] at h2
  exact ⟨s, rs, h1, h2⟩

end Mmkv
