import Verif.Props.NativeLog
import Verif.Props.Logger
/-!
# C37, C38 for native loggers

`Props/Logger.lean` is about loggers without a `Drop` that logs.  A native logger's `Drop` logs a message of its own, to the thread that runs
it; otherwise what comes out is that of the ideal logger.
-/

namespace Mmkv.NLog
open Log (Job Ev Ideal Delivery shown deliver charge)

/-! ### Specification -/

/-- A callback with the code of a level is what the method of that level is to a Rust logger; a `destroy` delivers nothing. -/
def Out.delivery : Out → Option Delivery
  | .call l .error msg => some (.call l .error msg)
  | .call l .warn msg => some (.call l .warn msg)
  | .call l .info msg => some (.call l .info msg)
  | .call l .debug msg => some (.call l .debug msg)
  | .call l .verbose msg => some (.call l .verbose msg)
  | .call _ .off _ => none
  | .print level msg => some (.print level msg)
  | .destroy _ => none

/-- What a user sees of the messages of `Drop`: for each, the logger in charge and the logger that went. -/
def farewells (rel : List (Option Nat × Nat)) : List Delivery := rel.flatMap fun x => shown x.1 .verbose (releaseMsg x.2)

/-! ### Proofs -/

/-- What has come out and what is still to come. -/
def allOut (lp : Looper.St Unit Job Writer) : List Delivery :=
  lp.cb.out.filterMap Out.delivery ++ deliver lp.cb.inner (lp.buf ++ lp.queue)

structure NSim (s : St) (i : Ideal) (rel : List (Option Nat × Nat)) : Prop where
  level : s.level = i.level.code
  pending : s.pending = i.pending
  real : ∀ p ∈ s.pending, p.1 ≠ .off
  logger : charge s.lp.cb.inner (s.lp.buf ++ s.lp.queue) = i.logger
  sub : i.out.Sublist (allOut s.lp)
  perm : (allOut s.lp).Perm (i.out ++ farewells rel)
  gone : (rel.map (·.2)).Sublist (destroyed s.lp.cb.out)

theorem allOut_push (lp : Looper.St Unit Job Writer) (j : Job) :
    allOut (Looper.push lp j) = allOut lp ++ deliver (charge lp.cb.inner (lp.buf ++ lp.queue)) [j] ∧
    charge (Looper.push lp j).cb.inner ((Looper.push lp j).buf ++ (Looper.push lp j).queue) =
      charge (charge lp.cb.inner (lp.buf ++ lp.queue)) [j] ∧ (Looper.push lp j).cb = lp.cb := by
  have e : (Looper.push lp j).cb = lp.cb ∧ (Looper.push lp j).buf = lp.buf ∧ (Looper.push lp j).queue = lp.queue ++ [j] := by
    unfold Looper.push; split <;> exact ⟨rfl, rfl, rfl⟩
  obtain ⟨e1, e2, e3⟩ := e
  refine ⟨?_, ?_, e1⟩
  · simp only [allOut, e1, e2, e3]
    rw [← List.append_assoc, Log.deliver_append, ← List.append_assoc]
  · rw [e1, e2, e3, ← List.append_assoc, Log.charge_append]

theorem allOut_send (lp : Looper.St Unit Job Writer) :
    allOut (Looper.send lp).1 = allOut lp ∧ (Looper.send lp).1.cb = lp.cb ∧ (Looper.send lp).1.buf = lp.buf ∧
      (Looper.send lp).1.queue = lp.queue := by
  unfold Looper.send
  split
  · split <;> exact ⟨rfl, rfl, rfl, rfl⟩
  · exact ⟨rfl, rfl, rfl, rfl⟩

/-- A step of the log thread changes nothing of what will have come out in the end. -/
theorem allOut_io {es : List Ev} {s : St} {exs : List Nat} (h : Inv es s exs) {lp : Looper.St Unit Job Writer}
    (hlp : Looper.ioStep exec () s.lp = some lp) :
    allOut lp = allOut s.lp ∧ charge lp.cb.inner (lp.buf ++ lp.queue) = charge s.lp.cb.inner (s.lp.buf ++ s.lp.queue) ∧
      destroyed lp.cb.out = destroyed s.lp.cb.out ++ lp.cb.dropped ∧ lp.cb.dropped.length ≤ 1 := by
  have h0 := h.none'
  unfold Looper.ioStep at hlp
  rcases h.io with ⟨hi, hb⟩ | ⟨hi, hb⟩ | hi
  · rw [hi] at hlp
    simp only at hlp
    split at hlp
    · injection hlp with hlp; subst hlp; exact ⟨rfl, rfl, by simp [h0], by simp [h0]⟩
    · injection hlp with hlp; subst hlp; exact ⟨rfl, rfl, by simp [h0], by simp [h0]⟩
    · rw [if_pos h.sender] at hlp; cases hlp
  · rw [hi] at hlp
    simp only [Option.some.injEq] at hlp
    subst hlp
    refine ⟨?_, ?_, by simp [h0], by simp [h0]⟩
    · simp [allOut, hb]
    · simp [hb]
  · rw [hi] at hlp
    simp only at hlp
    split at hlp
    · injection hlp with hlp; subst hlp; exact ⟨rfl, rfl, by simp [h0], by simp [h0]⟩
    · rename_i j rest hb
      generalize hcb : s.lp.cb = cb0 at *
      obtain ⟨inner, out, dropped⟩ := cb0
      simp only at h0
      subst h0
      cases j with
      | write level msg =>
        cases inner with
        | none =>
          simp only [exec, Option.some.injEq] at hlp
          subst hlp
          refine ⟨?_, ?_, by simp [destroyed], by simp⟩
          · simp [allOut, hcb, hb, deliver, shown, Out.delivery]
          · simp [hb, charge]
        | some l =>
          cases level <;> simp only [exec, Log.redirect, Option.some.injEq] at hlp <;> subst hlp <;>
            refine ⟨?_, ?_, by simp [destroyed], by simp⟩ <;>
            simp [allOut, hcb, hb, deliver, shown, Out.delivery, charge]
      | setLogger l =>
        cases inner with
        | none =>
          simp only [exec, Option.some.injEq] at hlp
          subst hlp
          refine ⟨?_, ?_, by simp, by simp⟩
          · simp [allOut, hcb, hb, deliver]
          · simp [hb, charge]
        | some old =>
          simp only [exec, Option.some.injEq] at hlp
          subst hlp
          refine ⟨?_, ?_, by simp [destroyed], by simp⟩
          · simp [allOut, hcb, hb, deliver, Out.delivery]
          · simp [hb, charge]

theorem farewells_snoc (rel : List (Option Nat × Nat)) (i : Option Nat) (l : Nat) :
    farewells (rel ++ [(i, l)]) = farewells rel ++ shown i .verbose (releaseMsg l) := by simp [farewells]

theorem verbose_lt (l : LogLevel) : l.code < LogLevel.verbose.code ↔ l ≠ .verbose := by cases l <;> decide

theorem nsim_step {es : List Ev} {s s' : St} {exs : List Nat} {i : Ideal} {rel : List (Option Nat × Nat)} {e : Ev} {p : Bool}
    (hi : Inv es s exs) (h : NSim s i rel) (hr : e.Real) (hs : step s e = some (s', p)) :
    ∃ rel', NSim s' (i.step e) rel' ∧
      ((rel' = rel ∧ destroyed s'.lp.cb.out = destroyed s.lp.cb.out) ∨ e = .io ∧ ∃ l, destroyed s'.lp.cb.out = destroyed s.lp.cb.out ++ [l] ∧
        ((i.level ≠ .verbose ∧ rel' = rel) ∨ (i.level = .verbose ∧ rel' = rel ++ [(i.logger, l)]))) := by
  cases e with
  | setLevel l =>
    simp only [step, Option.some.injEq, Prod.mk.injEq] at hs
    obtain ⟨rfl, _⟩ := hs
    exact ⟨rel, ⟨rfl, h.pending, h.real, h.logger, h.sub, h.perm, h.gone⟩, .inl ⟨rfl, rfl⟩⟩
  | log level msg =>
    simp only [step, h.level] at hs
    simp only [Ideal.step]
    split at hs
    · rename_i hlt
      simp only [Option.some.injEq, Prod.mk.injEq] at hs
      obtain ⟨rfl, _⟩ := hs
      rw [if_neg ((Log.lt_iff _ _ hr).1 hlt)]
      exact ⟨rel, h, .inl ⟨rfl, rfl⟩⟩
    · rename_i hlt
      simp only [Option.some.injEq, Prod.mk.injEq] at hs
      obtain ⟨rfl, _⟩ := hs
      rw [if_pos (Classical.not_not.1 fun hc => hlt ((Log.lt_iff _ _ hr).2 hc))]
      refine ⟨rel, ⟨rfl, by simp [h.pending], ?_, h.logger, h.sub, h.perm, h.gone⟩, .inl ⟨rfl, rfl⟩⟩
      intro q hq
      rcases List.mem_append.1 hq with hq | hq
      · exact h.real q hq
      · simp only [List.mem_singleton] at hq; subst hq; exact hr
  | queue k =>
    simp only [step] at hs
    simp only [Ideal.step, ← h.pending]
    split at hs
    · cases hs
    rename_i level msg hk
    simp only [Option.some.injEq, Prod.mk.injEq] at hs
    obtain ⟨rfl, _⟩ := hs
    simp only [hk]
    obtain ⟨a1, a2, a3⟩ := allOut_push s.lp (.write level msg)
    have hd : deliver (charge s.lp.cb.inner (s.lp.buf ++ s.lp.queue)) [.write level msg] = shown i.logger level msg := by
      rw [h.logger]; simp [deliver]
    rw [hd] at a1
    refine ⟨rel, ⟨h.level, rfl, fun q hq => h.real q (List.mem_of_mem_eraseIdx hq), ?_, ?_, ?_, ?_⟩, .inl ⟨rfl, by simp only [a3]⟩⟩
    · simp only []; rw [a2, h.logger]; rfl
    · simp only []; rw [a1]; exact h.sub.append (List.Sublist.refl _)
    · simp only []
      rw [a1]
      refine (h.perm.append_right _).trans ?_
      rw [List.append_assoc, List.append_assoc]
      exact List.Perm.append_left _ List.perm_append_comm
    · simp only []; rw [a3]; exact h.gone
  | setLogger l =>
    simp only [step, Option.some.injEq, Prod.mk.injEq] at hs
    obtain ⟨rfl, _⟩ := hs
    obtain ⟨a1, a2, a3⟩ := allOut_push s.lp (.setLogger l)
    simp only [deliver, List.append_nil] at a1
    refine ⟨rel, ⟨h.level, h.pending, h.real, ?_, ?_, ?_, ?_⟩, .inl ⟨rfl, by simp only [a3]⟩⟩
    · simp only [Ideal.step]; rw [a2]; rfl
    · simp only [Ideal.step]; rw [a1]; exact h.sub
    · simp only [Ideal.step]; rw [a1]; exact h.perm
    · simp only []; rw [a3]; exact h.gone
  | send =>
    simp only [step] at hs
    split at hs
    · simp only [Option.some.injEq, Prod.mk.injEq] at hs
      obtain ⟨rfl, _⟩ := hs
      obtain ⟨a1, a2, a3, a4⟩ := allOut_send s.lp
      refine ⟨rel, ⟨h.level, h.pending, h.real, ?_, ?_, ?_, ?_⟩, .inl ⟨rfl, by simp only [a2]⟩⟩
      · simp only []; rw [a2, a3, a4]; exact h.logger
      · simp only []; rw [a1]; exact h.sub
      · simp only []; rw [a1]; exact h.perm
      · simp only []; rw [a2]; exact h.gone
    · cases hs
  | io =>
    simp only [step] at hs
    split at hs
    · cases hs
    rename_i lp hlp
    obtain ⟨b1, b2, b3, b4⟩ := allOut_io hi hlp
    split at hs
    · rename_i hd
      simp only [Option.some.injEq, Prod.mk.injEq] at hs
      obtain ⟨rfl, _⟩ := hs
      rw [hd, List.append_nil] at b3
      refine ⟨rel, ⟨h.level, h.pending, h.real, ?_, ?_, ?_, ?_⟩, .inl ⟨rfl, b3⟩⟩
      · exact b2.trans h.logger
      · show i.out.Sublist (allOut lp); rw [b1]; exact h.sub
      · show (allOut lp).Perm _; rw [b1]; exact h.perm
      · show (rel.map (·.2)).Sublist (destroyed lp.cb.out); rw [b3]; exact h.gone
    · rename_i l rest hd
      have hrest : rest = [] := by
        rw [hd] at b4; simp only [List.length_cons] at b4; exact List.length_eq_zero_iff.1 (by omega)
      subst hrest
      rw [hd] at b3
      simp only [say] at hs
      split at hs
      · rename_i hlt
        simp only [Option.some.injEq, Prod.mk.injEq] at hs
        obtain ⟨rfl, _⟩ := hs
        rw [h.level, verbose_lt] at hlt
        refine ⟨rel, ⟨h.level, h.pending, h.real, ?_, ?_, ?_, ?_⟩, .inr ⟨rfl, l, b3, .inl ⟨hlt, rfl⟩⟩⟩
        · exact b2.trans h.logger
        · show i.out.Sublist (allOut lp); rw [b1]; exact h.sub
        · show (allOut lp).Perm _; rw [b1]; exact h.perm
        · show (rel.map (·.2)).Sublist (destroyed lp.cb.out); rw [b3]; exact h.gone.trans (List.sublist_append_left _ _)
      · rename_i hlt
        have hv : i.level = .verbose := by
          rw [h.level, verbose_lt] at hlt; exact Classical.not_not.1 hlt
        simp only [Option.some.injEq, Prod.mk.injEq] at hs
        obtain ⟨rfl, _⟩ := hs
        generalize hlp1 : ({ lp with cb := { lp.cb with dropped := [] } } : Looper.St Unit Job Writer) = lp1
        have c1 : allOut lp1 = allOut s.lp := by rw [← b1, ← hlp1]; rfl
        have c2 : charge lp1.cb.inner (lp1.buf ++ lp1.queue) = i.logger := by rw [← h.logger, ← b2, ← hlp1]
        have c3 : destroyed lp1.cb.out = destroyed s.lp.cb.out ++ [l] := by rw [← b3, ← hlp1]
        obtain ⟨a1, a2, a3⟩ := allOut_push lp1 (.write .verbose (releaseMsg l))
        obtain ⟨d1, d2, d3, d4⟩ := allOut_send (Looper.push lp1 (.write .verbose (releaseMsg l)))
        rw [c2] at a1 a2
        have hdel : deliver i.logger [.write .verbose (releaseMsg l)] = shown i.logger .verbose (releaseMsg l) := by simp [deliver]
        rw [hdel, c1] at a1
        refine ⟨rel ++ [(i.logger, l)], ⟨h.level, h.pending, h.real, ?_, ?_, ?_, ?_⟩, .inr ⟨rfl, l, ?_, .inr ⟨hv, rfl⟩⟩⟩
        · simp only []; rw [d2, d3, d4, a2]; rfl
        · simp only []; rw [d1, a1]; exact h.sub.trans (List.sublist_append_left _ _)
        · simp only []
          rw [d1, a1, farewells_snoc, ← List.append_assoc]
          exact h.perm.append_right _
        · simp only []
          rw [d2, a3, c3, List.map_append]
          exact h.gone.append (List.Sublist.refl _)
        · simp only []; rw [d2, a3, c3]

theorem nsim_run (es2 : List Ev) : ∀ {es1 : List Ev} {s s' : St} {exs : List Nat} {i : Ideal} {rel : List (Option Nat × Nat)} {ps : List Bool},
    Inv es1 s exs → NSim s i rel → Own (es1 ++ es2) → (∀ e ∈ es2, e.Real) → run s es2 = some (s', ps) →
    ∃ rel', NSim s' (i.run es2) rel' ∧
      ((∀ a b, es2 = a ++ .io :: b → (i.run a).level ≠ .verbose) → rel' = rel) ∧
      ((∀ a b, es2 = a ++ .io :: b → (i.run a).level = .verbose) → rel.map (·.2) = destroyed s.lp.cb.out →
        rel'.map (·.2) = destroyed s'.lp.cb.out) := by
  induction es2 with
  | nil =>
    intro es1 s s' exs i rel ps _ h _ _ hr
    simp only [run, Option.some.injEq, Prod.mk.injEq] at hr
    obtain ⟨rfl, rfl⟩ := hr
    exact ⟨rel, h, fun _ => rfl, fun _ h => h⟩
  | cons e es2 ih =>
    intro es1 s s' exs i rel ps hi h hown hreal hr
    simp only [run] at hr
    split at hr
    · cases hr
    rename_i s1 p hs
    split at hr
    · cases hr
    rename_i s2 ps2 hr2
    simp only [Option.some.injEq, Prod.mk.injEq] at hr
    obtain ⟨rfl, rfl⟩ := hr
    have e1 : es1 ++ e :: es2 = (es1 ++ [e]) ++ es2 := by simp
    rw [e1] at hown
    have hown1 : Own (es1 ++ [e]) := by
      refine ⟨fun hc => hown.1 (List.mem_append_left _ hc), ?_⟩
      have := hown.2
      rw [sets_append] at this
      exact (List.nodup_append.1 this).1
    obtain ⟨_, exs1, hi1⟩ := step_inv hi hown1 hs
    obtain ⟨rel1, h1, hcase⟩ := nsim_step hi h (hreal e (by simp)) hs
    obtain ⟨rel2, h2, hA, hB⟩ := ih hi1 h1 hown (fun e he => hreal e (by simp [he])) hr2
    refine ⟨rel2, h2, fun hn => ?_, fun hv hg => ?_⟩
    · have := hA fun a b hab => hn (e :: a) b (by rw [hab]; rfl)
      rw [this]
      rcases hcase with ⟨hc, _⟩ | ⟨rfl, l, _, ⟨_, hc⟩ | ⟨hc, _⟩⟩
      · exact hc
      · exact hc
      · exact absurd hc (hn [] es2 rfl)
    · refine hB (fun a b hab => hv (e :: a) b (by rw [hab]; rfl)) ?_
      rcases hcase with ⟨hc, hd⟩ | ⟨rfl, l, hd, ⟨hc, _⟩ | ⟨_, hc⟩⟩
      · rw [hc, hd]; exact hg
      · exact absurd (hv [] es2 rfl) hc
      · rw [hc, hd, List.map_append, hg]; rfl

/-- **C37, C38** for native loggers (C and Swift).  After any history of `set_log_level`, `set_logger` and log calls in any number of threads,
what has come out is the beginning of, and once the log thread has nothing queued is all of, a list in which: the deliveries of the ideal
logger (one without a background thread: each message the level in force allowed, exactly once, in order, to the logger in charge when its turn
came) appear in order; and nothing else does but, for some of the loggers destroyed, one message each that says so, to the logger in charge.
There is no such message if the level never was `Verbose` when the log thread took a step, and one for every logger destroyed if it always
was. -/
theorem C37_native {es : List Ev} {s : St} {ps : List Bool} (hown : Own es) (hr : ∀ e ∈ es, e.Real) (h : run {} es = some (s, ps)) :
    ∃ all rel, s.lp.cb.out.filterMap Out.delivery <+: all ∧
      (s.lp.queue = [] → s.lp.buf = [] → s.lp.cb.out.filterMap Out.delivery = all) ∧
      (Ideal.run {} es).out.Sublist all ∧ all.Perm ((Ideal.run {} es).out ++ farewells rel) ∧
      (rel.map (·.2)).Sublist (destroyed s.lp.cb.out) ∧
      ((∀ a b, es = a ++ .io :: b → (Ideal.run {} a).level ≠ .verbose) → rel = []) ∧
      ((∀ a b, es = a ++ .io :: b → (Ideal.run {} a).level = .verbose) → rel.map (·.2) = destroyed s.lp.cb.out) := by
  have h0 : NSim {} {} [] :=
    ⟨rfl, rfl, by intro p hp; exact absurd hp (by simp), rfl, List.Sublist.refl _, List.Perm.refl _, List.Sublist.refl _⟩
  obtain ⟨rel, hn, hA, hB⟩ := nsim_run es inv_nil (es1 := []) h0 hown hr h
  refine ⟨allOut s.lp, rel, ⟨_, rfl⟩, ?_, hn.sub, hn.perm, hn.gone, hA, fun hv => hB hv rfl⟩
  intro h1 h2
  simp [allOut, h1, h2, deliver]

/-- **C37, C38** for native loggers, below `Verbose`: what comes out is exactly what the ideal logger would have shown. -/
theorem C37_native_exact {es : List Ev} {s : St} {ps : List Bool} (hown : Own es) (hr : ∀ e ∈ es, e.Real) (h : run {} es = some (s, ps))
    (hquiet : ∀ a b, es = a ++ .io :: b → (Ideal.run {} a).level ≠ .verbose) :
    s.lp.cb.out.filterMap Out.delivery <+: (Ideal.run {} es).out ∧
      (s.lp.queue = [] → s.lp.buf = [] → s.lp.cb.out.filterMap Out.delivery = (Ideal.run {} es).out) := by
  obtain ⟨all, rel, h1, h2, h3, h4, _, h6, _⟩ := C37_native hown hr h
  have := h6 hquiet
  subst this
  have e : (Ideal.run {} es).out = all := by
    refine h3.eq_of_length ?_
    have := h4.length_eq
    simp [farewells] at this
    exact this.symm
  rw [e]
  exact ⟨h1, h2⟩

/-- The hypotheses are met, at `Info` and at `Verbose`: two loggers, messages of which one is filtered, one exactly at the level. -/
example :
    let es : List Ev := [.setLevel .info, .setLogger (some 1), .send, .log .info "x", .log .debug "no", .queue 0, .send, .setLogger (some 2), .send, .log .error "z",
      .queue 0, .send] ++ List.replicate 16 .io
    Own es ∧ (∀ e ∈ es, e.Real) ∧ (match run {} es with
      | some (s, _) => decide (s.lp.cb.out = [.call 1 .info "x", .destroy 1, .call 2 .error "z"] ∧ s.lp.queue = [] ∧ s.lp.buf = [])
      | none => false) = true ∧
    (Ideal.run {} es).out = [.call 1 .info "x", .call 2 .error "z"] := by
  refine ⟨⟨by decide, by decide⟩, ?_, by decide +kernel, by decide +kernel⟩
  intro e he
  simp only [List.cons_append, List.mem_cons, List.nil_append, List.mem_replicate] at he
  rcases he with rfl | rfl | rfl | rfl | rfl | rfl | rfl | rfl | rfl | rfl | rfl | rfl | ⟨_, rfl⟩ <;> simp [Ev.Real]

end Mmkv.NLog
