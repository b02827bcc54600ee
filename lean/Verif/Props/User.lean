import Verif.Model.User
import Verif.Props.Durability
/-!
# C64: a user's own types

The property a user expects: if the `type_token`, `to_bytes` or `from_bytes` of one of my types panics, the call that used
it fails, and nothing else does.
-/

namespace Mmkv
open Spec Inst
variable {ι : Type}

/-- The event as the store sees it; `none` when the user's code panics. -/
def UEv.asEv : UEv ι → Option (Ev ι)
  | .ev e => some e
  | .putUser key token (some bs) => if 0 ≤ token.toInt ∧ token.toInt ≤ 100 then none else some (.put key token bs)
  | .putUser _ _ none => none

/-- The part of a history before user code panics for the first time. -/
def beforePanic : List (UEv ι) → List (Ev ι)
  | [] => []
  | e :: es => match e.asEv with
    | some e => e :: beforePanic es
    | none => []

/-- 1 while a mutating call is under way. -/
def Inst.pendingCall (s : Inst ι) : Nat := if s.phase = .idle ∨ s.phase = .closed then 0 else 1

theorem openAt_idle {codecs : ι → Codec} {j : ι} {p : Nat} {f : Bytes} {u : Nat} {q : Option Nat} {x : Inst ι}
    (hx : openAt codecs j p f u q = some x) : x.phase = .idle ∧ x.poisoned = false := by
  unfold openAt at hx
  split at hx
  · cases hx
  · cases hx; exact ⟨rfl, rfl⟩

theorem returns_step {codecs : ι → Codec} {s s' : Inst ι} {e : Ev ι} {r : Option (Out Unit)}
    (h : Inst.step codecs s e = some (s', r)) :
    s.pendingCall + e.call?.toList.length = r.toList.length + s'.pendingCall := by
  cases e with
  | put k t bs =>
    simp only [Inst.step] at h
    split at h
    · cases h
    · rename_i hc
      have hi : s.phase = .idle := by
        apply Classical.byContradiction; intro hn; exact hc (.inl hn)
      split at h
      · cases h; simp [pendingCall, hi, Ev.call?]
      · split at h
        · cases h; simp [pendingCall, hi, Ev.call?]
        · cases h; simp [pendingCall, hi, Ev.call?]
  | delete k =>
    simp only [Inst.step] at h
    split at h
    · cases h
    · rename_i hi
      have hi : s.phase = .idle := Classical.byContradiction hi
      split at h
      · cases h; simp [pendingCall, hi, Ev.call?]
      · split at h
        · cases h; simp [pendingCall, hi, Ev.call?]
        · split at h
          · cases h; simp [pendingCall, hi, Ev.call?]
          · cases h; simp [pendingCall, hi, Ev.call?]
  | clear =>
    simp only [Inst.step] at h
    split at h
    · cases h
    · rename_i hi
      have hi : s.phase = .idle := Classical.byContradiction hi
      split at h
      · cases h; simp [pendingCall, hi, Ev.call?]
      · split at h
        · cases h; simp [pendingCall, hi, Ev.call?]
        · cases h; simp [pendingCall, hi, Ev.call?]
  | api i =>
    simp only [Inst.step] at h
    split at h
    · cases h
    · cases h
    · rename_i hp; cases h; simp [pendingCall, hp, Ev.call?]
    · rename_i hp; cases h; simp [pendingCall, hp, Ev.call?]
    · rename_i hp; cases h; simp [pendingCall, hp, Ev.call?]
    · rename_i hp
      split at h <;> (cases h; simp [pendingCall, hp, Ev.call?])
    · rename_i hp
      split at h <;> (cases h; simp [pendingCall, hp, Ev.call?])
    · rename_i hp
      split at h
      · cases h; simp [pendingCall, hp, Ev.call?]
      · split at h
        · cases h; simp [pendingCall, hp, Ev.call?]
        · cases h
    · rename_i hp
      split at h
      · cases h; simp [pendingCall, hp, Ev.call?]
      · rename_i x hx
        have := (openAt_idle hx).1
        split at h
        · cases h; simp [pendingCall, hp, Ev.call?, this]
        · split at h
          · cases h; simp [pendingCall, hp, Ev.call?, this]
          · split at h
            · cases h; simp [pendingCall, hp, Ev.call?, this]
            · cases h
  | drop =>
    simp only [Inst.step] at h
    split at h
    · cases h
    · rename_i hi
      have hi : s.phase = .idle := Classical.byContradiction hi
      cases h; simp [pendingCall, hi, Ev.call?]
  | io o =>
    simp only [Inst.step] at h
    split at h
    · cases h
    · cases h; simp [pendingCall, Ev.call?]

/-- Every call returns once: at rest there are as many results as there were calls. -/
theorem returns_run {codecs : ι → Codec} (es : List (Ev ι)) {s s' : Inst ι} {rs : List (Out Unit)}
    (h : Inst.run codecs s es = some (s', rs)) : s.pendingCall + (calls es).length = rs.length + s'.pendingCall := by
  induction es generalizing s rs with
  | nil => cases h; simp
  | cons e es ih =>
    simp only [Inst.run] at h
    split at h
    · cases h
    · rename_i s1 r1 h1
      split at h
      · cases h
      · rename_i s2 rs2 h2
        cases h
        have a := returns_step h1
        have b := ih h2
        rw [calls_cons]
        simp only [List.length_append]
        omega

/-- A step of the store that goes on after the lock is poisoned: the drop of the last handle, and the background thread. -/
def UEv.quietEv : UEv ι → Option (Ev ι)
  | .ev .drop => some .drop
  | .ev (.io o) => some (.io o)
  | _ => none

theorem poisoned_step_u {codecs : ι → Codec} {s s' : Inst ι} {e : UEv ι} {r : Option (Out Unit)}
    (hph : s.phase = .idle ∨ s.phase = .closed) (h : stepU codecs { s with poisoned := true } e = some (s', r)) :
    (∀ x, r = some x → x = .err (.lockError "")) ∧
      ∃ s1, s' = { s1 with poisoned := true } ∧ (s1.phase = .idle ∨ s1.phase = .closed) ∧
        Inst.run codecs s e.quietEv.toList = some (s1, []) := by
  have stay : ∀ {x : Inst ι × Option (Out Unit)}, e.quietEv = none →
      x = ({ s with poisoned := true }, some (.err (.lockError ""))) → x = (s', r) →
      (∀ x, r = some x → x = .err (.lockError "")) ∧
      ∃ s1, s' = { s1 with poisoned := true } ∧ (s1.phase = .idle ∨ s1.phase = .closed) ∧
        Inst.run codecs s e.quietEv.toList = some (s1, []) := by
    intro x hq hx hx'
    rw [hx] at hx'
    cases hx'
    refine ⟨by simp, s, rfl, hph, ?_⟩
    rw [hq]; rfl
  cases e with
  | putUser k t b =>
    simp only [stepU] at h
    split at h
    · cases h
    · simp only [if_true] at h
      exact stay rfl rfl (Option.some.inj h)
  | ev e =>
    cases e with
    | put k t bs =>
      simp only [stepU, Inst.step] at h
      split at h
      · cases h
      · simp only [if_true] at h
        exact stay rfl rfl (Option.some.inj h)
    | delete k =>
      simp only [stepU, Inst.step] at h
      split at h
      · cases h
      · simp only [if_true] at h
        exact stay rfl rfl (Option.some.inj h)
    | clear =>
      simp only [stepU, Inst.step] at h
      split at h
      · cases h
      · simp only [if_true] at h
        exact stay rfl rfl (Option.some.inj h)
    | api i =>
      simp only [stepU, Inst.step] at h
      rcases hph with hph | hph <;> simp [hph] at h
    | drop =>
      simp only [stepU, Inst.step] at h
      split at h
      · cases h
      · rename_i hp
        cases h
        refine ⟨by simp, { s with phase := .closed, lp := Looper.dropSender s.lp }, rfl, .inr rfl, ?_⟩
        simp only [UEv.quietEv, Option.toList, Inst.run, Inst.step]
        rw [if_neg hp]
        rfl
    | io o =>
      simp only [stepU, Inst.step] at h
      split at h
      · cases h
      · rename_i lp hlp
        cases h
        refine ⟨by simp, { s with lp := lp }, rfl, hph, ?_⟩
        simp only [UEv.quietEv, Option.toList, Inst.run, Inst.step]
        rw [hlp]
        rfl

theorem run_then {codecs : ι → Codec} (es fs : List (Ev ι)) {s s1 s2 : Inst ι} {rs rs' : List (Out Unit)}
    (h1 : Inst.run codecs s es = some (s1, rs)) (h2 : Inst.run codecs s1 fs = some (s2, rs')) :
    Inst.run codecs s (es ++ fs) = some (s2, rs ++ rs') := by
  induction es generalizing s rs with
  | nil => cases h1; simpa using h2
  | cons e es ih =>
    simp only [Inst.run] at h1
    simp only [List.cons_append, Inst.run]
    split at h1
    · cases h1
    · rename_i s1 r1 h1'
      split at h1
      · cases h1
      · rename_i s2 rs2 h2'
        cases h1
        simp only [ih h2']
        rw [List.append_assoc]

theorem poisoned_run_u {codecs : ι → Codec} (es : List (UEv ι)) {s s' : Inst ι} {rs : List (Out Unit)}
    (hph : s.phase = .idle ∨ s.phase = .closed) (h : runU codecs { s with poisoned := true } es = some (s', rs)) :
    (∀ r ∈ rs, r = .err (.lockError "")) ∧
      ∃ s1, s' = { s1 with poisoned := true } ∧ (s1.phase = .idle ∨ s1.phase = .closed) ∧
        Inst.run codecs s (es.filterMap UEv.quietEv) = some (s1, []) := by
  induction es generalizing s rs with
  | nil => cases h; exact ⟨by simp, s, rfl, hph, rfl⟩
  | cons e es ih =>
    simp only [runU] at h
    split at h
    · cases h
    · rename_i s1 r1 h1
      split at h
      · cases h
      · rename_i s2 rs2 h2
        cases h
        obtain ⟨a1, t, rfl, ht, hr⟩ := poisoned_step_u hph h1
        obtain ⟨b1, t2, rfl, ht2, hr2⟩ := ih ht h2
        refine ⟨?_, t2, rfl, ht2, ?_⟩
        · intro r hr
          rcases List.mem_append.1 hr with hr | hr
          · exact a1 r (by simpa using hr)
          · exact b1 r hr
        · have := run_then _ _ hr hr2
          rw [List.filterMap_cons]
          cases hq : e.quietEv with
          | none => rw [hq] at this; simpa using this
          | some q => rw [hq] at this; simpa using this

theorem asEv_step {codecs : ι → Codec} {s s' : Inst ι} {e : UEv ι} {e' : Ev ι} {r : Option (Out Unit)} (ha : e.asEv = some e')
    (h : stepU codecs s e = some (s', r)) : Inst.step codecs s e' = some (s', r) := by
  cases e with
  | ev e => cases ha; exact h
  | putUser k t b =>
    cases b with
    | none => cases ha
    | some bs =>
      simp only [UEv.asEv] at ha
      split at ha
      · cases ha
      · rename_i hn
        cases ha
        have hres : reserved t = false := by simpa [reserved] using hn
        simp only [stepU, typeTokenNew, hres] at h
        split at h
        · cases h
        · rename_i hi
          split at h
          · rename_i hp
            have : tokenOk t = true := by simp [tokenOk, hres]
            simp only [Inst.step, this]
            rw [if_neg (by simpa using hi), if_pos hp]
            exact h
          · exact h

/-- A history splits at the first panic of user code: up to there it is one of the store; afterwards the lock is poisoned and
only the background thread and the drop go on. -/
theorem split_u {codecs : ι → Codec} (es : List (UEv ι)) {s s' : Inst ι} {rs : List (Out Unit)}
    (h : runU codecs s es = some (s', rs)) :
    ∃ (s1 : Inst ι) (rs1 rs2 : List (Out Unit)) (fs : List (Ev ι)), rs = rs1 ++ rs2 ∧
      Inst.run codecs s (beforePanic es ++ fs) = some (s1, rs1) ∧ (∀ e ∈ fs, UEv.ev e ∈ es ∧ e.call? = none) ∧
      s'.lp = s1.lp ∧ s'.phase = s1.phase ∧ s'.idx = s1.idx ∧ (∀ r ∈ rs2, r = .panic ∨ r = .err (.lockError "")) := by
  induction es generalizing s rs with
  | nil => cases h; exact ⟨s', [], [], [], rfl, rfl, by simp, rfl, rfl, rfl, by simp⟩
  | cons e es ih =>
    simp only [runU] at h
    split at h
    · cases h
    · rename_i t r1 h1
      split at h
      · cases h
      · rename_i t2 rs2 h2
        cases h
        cases ha : e.asEv with
        | some e' =>
          obtain ⟨u, a, b, fs, rfl, hr, hfs, h3, h4, h5, h6⟩ := ih h2
          refine ⟨u, r1.toList ++ a, b, fs, by rw [List.append_assoc], ?_, fun e he => ⟨List.mem_cons_of_mem _ (hfs e he).1,
            (hfs e he).2⟩, h3, h4, h5, h6⟩
          have h1' := asEv_step ha h1
          simp only [beforePanic, ha, List.cons_append, Inst.run, h1', hr]
        | none =>
          simp only [beforePanic, ha, List.nil_append]
          have hkt : ∃ k tk b, e = .putUser k tk b := by
            cases e with
            | ev e => cases ha
            | putUser k tk b => exact ⟨k, tk, b, rfl⟩
          obtain ⟨k, tk, b, rfl⟩ := hkt
          have hstep : s.phase = .idle ∧ t = { s with poisoned := true } ∧
              (r1 = some .panic ∨ r1 = some (.err (.lockError ""))) := by
            simp only [stepU] at h1
            split at h1
            · cases h1
            · rename_i hi
              have hi : s.phase = .idle := Classical.byContradiction hi
              split at h1
              · rename_i hp
                cases h1
                refine ⟨hi, ?_, .inr rfl⟩
                rw [← hp]
              · split at h1
                · rename_i tk' bs hx
                  exfalso
                  unfold typeTokenNew at hx
                  split at hx
                  · cases hx
                  · rename_i hn
                    simp [reserved] at hn
                    simp only [UEv.asEv] at ha
                    split at ha
                    · rename_i hc; exact absurd hc.2 (by have := hn hc.1; omega)
                    · cases ha
                · cases h1; exact ⟨hi, rfl, .inl rfl⟩
          obtain ⟨hi, rfl, hr1⟩ := hstep
          obtain ⟨hl, u, rfl, hu, hrun⟩ := poisoned_run_u es (.inl hi) h2
          refine ⟨u, [], r1.toList ++ rs2, es.filterMap UEv.quietEv, rfl, hrun, ?_, rfl, rfl, rfl, ?_⟩
          · intro e he
            obtain ⟨x, hx, hxe⟩ := List.mem_filterMap.1 he
            have : x = .ev e ∧ e.call? = none := by
              cases x with
              | putUser => cases hxe
              | ev y => cases y <;> simp only [UEv.quietEv, Option.some.injEq, reduceCtorEq] at hxe <;> (subst hxe; exact ⟨rfl, rfl⟩)
            exact ⟨List.mem_cons_of_mem _ (this.1 ▸ hx), this.2⟩
          · intro r hr
            rcases List.mem_append.1 hr with hr | hr
            · rcases hr1 with h | h <;> (subst h; simp only [Option.toList, List.mem_singleton] at hr; subst hr; simp)
            · exact .inr (hl r hr)

/-- **C64 is false of this program.**  Take any store, in any state between calls, whatever it holds.  One `put` of a value
whose `to_bytes` panics, or whose type token is a reserved one, and every later `put`, `get`, `delete` and `clear_data` of
anybody, on any key, fails with `LockError` - as long as the store stays open, whatever is tried. -/
theorem C64_refuted {codecs : ι → Codec} {s : Inst ι} (hidle : s.phase = .idle) (hp : s.poisoned = false) (k : String)
    (token : BitVec 32) (b : Option Bytes) (hbad : b = none ∨ (0 ≤ token.toInt ∧ token.toInt ≤ 100)) :
    ∃ s', stepU codecs s (.putUser k token b) = some (s', some .panic) ∧
      ∀ es s'' rs, runU codecs s' es = some (s'', rs) →
        (∀ r ∈ rs, r = .err (.lockError "")) ∧
        (∀ (α : Type) k' tok (f : Bytes → Out α), s''.getUser k' tok f = .err (.lockError "")) ∧
        (∀ k' (t : Ty), s''.get k' t = .err (.lockError "")) := by
  refine ⟨{ s with poisoned := true }, ?_, fun es s'' rs h => ?_⟩
  · have hni : ¬ (s.phase ≠ .idle) := fun h => h hidle
    simp only [stepU, hp]
    rw [if_neg hni]
    simp only [Bool.false_eq_true, if_false]
    split
    · rename_i hx
      exfalso
      unfold typeTokenNew at hx
      split at hx
      · cases hx
      · rename_i hn
        rcases hbad with h | h
        · cases h
        · exact hn (by simpa [reserved] using h)
    · rfl
  · obtain ⟨h1, u, rfl, hu, -⟩ := poisoned_run_u es (.inl hidle) h
    exact ⟨h1, fun α k' tok f => by simp [getUser], fun k' t => by simp [Inst.get, getAs]⟩

/-- Non-vacuity, and the whole story: "a" and "b" are stored, a custom value with token 7 is put, and `get` of "a" fails. -/
example : ∃ s0 s s' rs, openAt plain () 64 [] = some s0 ∧ Inst.run plain s0 demoEvs = some (s, rs) ∧ s.phase = .idle ∧
    s.poisoned = false ∧ s.get "a" .bool = .ok true ∧ stepU plain s (.putUser "c" 7 (some [1])) = some (s', some .panic) ∧
    s'.get "a" .bool = .err (.lockError "") := by
  have h : passes (fresh64 demoEvs) (fun s _ => decide (s.phase = .idle ∧ s.poisoned = false) &&
    (s.getAs "a" 2 boolFromBytes == .ok true)) = true := by decide +kernel
  obtain ⟨s0, s, rs, h1, h2, h3⟩ := exists_of_fresh64 h
  simp only [Bool.and_eq_true, decide_eq_true_eq, beq_iff_eq] at h3
  obtain ⟨s', hs', hall⟩ := C64_refuted (codecs := plain) h3.1.1 h3.1.2 "c" 7 (some [1]) (.inr (by decide))
  exact ⟨s0, s, s', rs, h1, h2, h3.1.1, h3.1.2, h3.2, hs', (hall [] s' [] rfl).2.2 "a" .bool⟩

/-- Fits, for histories with user-defined types. -/
def UEv.Fits (page : Nat) : UEv ι → Prop
  | .ev e => e.Fits page
  | .putUser k t (some bs) => recordSize k t bs ≤ page
  | .putUser _ _ none => True

/-- **C64**, what is true: the damage is not to the data.  In any history on a fresh directory that ends with a clean close,
in which user code may panic anywhere: every call before the first panic returned `Ok`, everything after it failed, and
opening the directory again shows exactly the calls that returned `Ok`.  Missing: the store being usable in between
(`C64_refuted`). -/
theorem C64_partial {page : Nat} (h8 : 8 ≤ page) (h32 : page < 2 ^ 32) {s0 s : Inst Unit} {es : List (UEv Unit)}
    {rs : List (Out Unit)} (hopen : openAt plain () page [] = some s0) (hrun : runU plain s0 es = some (s, rs))
    (hclosed : s.closedOk) (hfit : ∀ e ∈ es, e.Fits page)
    (hroom : page * (calls (beforePanic es)).length + 8 < 2 ^ 64) :
    (∃ failed, rs = List.replicate (calls (beforePanic es)).length (.ok ()) ++ failed ∧
      ∀ r ∈ failed, r = .panic ∨ r = .err (.lockError "")) ∧
    ∃ s', openAt plain () page s.disk = some s' ∧ s'.Shows (Store.empty.run (calls (beforePanic es))) := by
  obtain ⟨s1, rs1, rs2, fs, rfl, hr, hfs, h3, h4, h5, h6⟩ := split_u es hrun
  have hcalls : calls (beforePanic es ++ fs) = calls (beforePanic es) := by
    have : calls fs = [] := by
      unfold calls
      rw [List.filterMap_eq_nil_iff]
      exact fun e he => (hfs e he).2
    rw [show calls (beforePanic es ++ fs) = calls (beforePanic es) ++ calls fs by simp [calls], this, List.append_nil]
  have hcl : s1.closedOk := by
    obtain ⟨a, b⟩ := hclosed
    exact ⟨by rw [← h4]; exact a, by rw [← h3]; exact b⟩
  have hl : Life plain page Dir.fresh [⟨(), beforePanic es ++ fs, true⟩] [rs1] s1.dir :=
    .cons (x := ⟨(), beforePanic es ++ fs, true⟩) (fun _ _ => rfl) hopen hr (fun _ => hcl) (.nil _)
  have hbp : ∀ (es : List (UEv Unit)), (∀ e ∈ es, e.Fits page) → ∀ e ∈ beforePanic es, e.Fits page := by
    intro es
    induction es with
    | nil => intro _ e he; cases he
    | cons x xs ih =>
      intro h e he
      simp only [beforePanic] at he
      split at he
      · rename_i y hy
        rcases List.mem_cons.1 he with rfl | he
        · have := h x List.mem_cons_self
          cases x with
          | ev z => cases hy; exact this
          | putUser k t b =>
            cases b with
            | none => cases hy
            | some bs =>
              simp only [UEv.asEv] at hy
              split at hy
              · cases hy
              · cases hy; exact this
        · exact ih (fun e he => h e (List.mem_cons_of_mem _ he)) e he
      · cases he
  obtain ⟨hok, s', hs', hsh⟩ := C06_close_reopen h8 h32 hl (by
      intro x hx e he
      simp only [List.mem_singleton] at hx
      subst hx
      rcases List.mem_append.1 he with he | he
      · exact hbp es hfit e he
      · exact hfit _ (hfs e he).1) (by simp) (by simpa [callCount, hcalls] using hroom)
  refine ⟨⟨rs2, ?_, h6⟩, s', ?_, ?_⟩
  · have hcount := returns_run _ hr
    have a0 : s0.pendingCall = 0 := by simp [pendingCall, (openAt_idle hopen).1]
    have a1 : s1.pendingCall = 0 := by simp [pendingCall, hcl.1]
    rw [hcalls, a0, a1] at hcount
    have hall : ∀ r ∈ rs1, r = .ok () := hok rs1 (by simp)
    have : rs1 = List.replicate rs1.length (.ok ()) := List.eq_replicate_iff.2 ⟨rfl, hall⟩
    rw [this]
    have : rs1.length = (calls (beforePanic es)).length := by omega
    rw [this]
  · have : s.disk = s1.dir.file := by simp only [Inst.dir, disk, h3]
    rw [this]; exact hs'
  · simpa [allCalls, hcalls] using hsh

/-- A history in which a `to_bytes` panics after two calls, further calls are tried, and the store is closed. -/
def panicEvs : List (UEv Unit) :=
  [.ev (.put "a" 0 [0, 0, 0, 1]), .ev (.api ()), .ev (.api ()), .putUser "b" 200 (some [9]), .ev (.api ()), .ev (.api ()),
   .putUser "c" 200 none, .ev (.delete "a"), .putUser "d" 201 (some [1]), .ev .drop, .ev (.io idOrder), .ev (.io idOrder),
   .ev (.io idOrder), .ev (.io idOrder), .ev (.io idOrder), .ev (.io idOrder), .ev (.io idOrder), .ev (.io idOrder), .ev (.io idOrder)]

/-- Non-vacuity of `C64_partial`: two calls return `Ok`, then a panic and two `LockError`s; the store is closed. -/
example : ∃ s0 s rs, openAt plain () 64 [] = some s0 ∧ runU plain s0 (panicEvs) = some (s, rs) ∧ s.closedOk ∧
    rs = [.ok (), .ok (), .panic, .err (.lockError ""), .err (.lockError "")] ∧
    (calls (beforePanic (panicEvs))).length = 2 := by
  have h : (match openAt plain () 64 [] with
    | none => false
    | some s => match runU plain s (panicEvs) with
      | none => false
      | some (s, rs) => decide (s.phase = .closed) && decide (s.lp.io = .exited) && decide (rs = [.ok (), .ok (), .panic,
        .err (.lockError ""), .err (.lockError "")])) = true := by decide +kernel
  split at h
  · cases h
  · rename_i s0 h0
    split at h
    · cases h
    · rename_i s rs h1
      simp only [Bool.and_eq_true, decide_eq_true_eq] at h
      exact ⟨s0, s, rs, h0, h1, ⟨h.1.1, h.1.2⟩, h.2, rfl⟩

/-- **C64**, reading: whatever the user's `type_token` and `from_bytes` do, `get` at a user's type is a function of the
store: it answers from the value last put, refuses another token, panics only when the user's code does, and there is no
state for it to change. -/
theorem C64_get {α : Type} {codecs : ι → Codec} {i : ι} {page : Nat} {file : Bytes} {u : Nat} {q : Option Nat}
    {s0 s : Inst ι} {S0 : Store} {es : List (Ev ι)} {rs : List (Out Unit)}
    (hopen : openAt codecs i page file u q = some s0) (h0 : s0.Shows S0)
    (hrun : Inst.run codecs s0 es = some (s, rs)) (hok : ∀ r ∈ rs, r = .ok ()) (hidle : s.phase = .idle) (k : String)
    (token : BitVec 32) (f : Bytes → Out α) :
    s.getUser k token f =
      match (S0.run (calls es)) k with
      | none => .err .keyNotFound
      | some e => if 0 ≤ token.toInt ∧ token.toInt ≤ 100 then .panic
        else if token = e.token then f e.bytes else .err .typeMissMatch := by
  have hs := C01_latest_write_wins hopen h0 hrun hok hidle
  obtain ⟨hb, -⟩ := book_run es (book_open hopen) hrun hok
  have hv : s.valid = true := by rw [hb.valid, hidle]; rfl
  have hview := (shows_iff hb.poisoned hv (live_run es (live_open hopen) hrun)).1 hs
  generalize S0.run (calls es) = S at hs hview
  by_cases hr : 0 ≤ token.toInt ∧ token.toInt ≤ 100
  · have hres : reserved token = true := by simpa [reserved] using hr
    subst hview
    simp only [getUser, hb.poisoned, hv, typeTokenNew, hres, view]
    cases hk : s.kv.get k with
    | none => simp
    | some b => simp [hr]
  · have hres : reserved token = false := by simpa [reserved] using hr
    have h1 := hs α k token f
    rw [show s.getUser k token f = s.getAs k token f by simp [getUser, getAs, typeTokenNew, hres] <;> rfl, h1]
    unfold Store.lookup
    cases S k <;> simp [hr]

end Mmkv
