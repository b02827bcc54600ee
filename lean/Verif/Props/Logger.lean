import Verif.Model.Logger
import Verif.Props.Looper
/-!
# Logging: C37, C38
-/

namespace Mmkv.Log

/-! ### What a user has in mind -/

/-- A message is let through at a level exactly when it is at least as severe: `Off` lets nothing through, `Error` only
errors, ..., `Verbose` everything (src/mmkv.rs:259-267). -/
def allows : LogLevel → LogLevel → Bool
  | .off, _ => false
  | .error, m => m == .error
  | .warn, m => m == .error || m == .warn
  | .info, m => m == .error || m == .warn || m == .info
  | .debug, m => m == .error || m == .warn || m == .info || m == .debug
  | .verbose, _ => true

/-- What the user sees of a message: a call of the logger in charge, on the method named like the level, or a line. -/
def shown (logger : Option Nat) (level : LogLevel) (msg : String) : List Delivery :=
  match logger, level with
  | none, _ => [.print level msg]
  | some l, .error => [.call l .error msg]
  | some l, .warn => [.call l .warn msg]
  | some l, .info => [.call l .info msg]
  | some l, .debug => [.call l .debug msg]
  | some l, .verbose => [.call l .verbose msg]
  | some _, .off => []

/-- A calling thread's view: no background thread, no queue. -/
structure Ideal where
  level : LogLevel := .verbose
  logger : Option Nat := none
  pending : List (LogLevel × String) := []
  out : List Delivery := []

/-- `set_log_level` and `set_logger` take effect at once; a message let through is shown as soon as its turn comes. -/
def Ideal.step (s : Ideal) : Ev → Ideal
  | .setLevel l => { s with level := l }
  | .log level msg => if allows s.level level then { s with pending := s.pending ++ [(level, msg)] } else s
  | .queue k =>
    match s.pending[k]? with
    | none => s
    | some (level, msg) => { s with pending := s.pending.eraseIdx k, out := s.out ++ shown s.logger level msg }
  | .setLogger l => { s with logger := l }
  | .send => s
  | .io => s

/-- The ideal logger after a history. -/
def Ideal.run (s : Ideal) (es : List Ev) : Ideal := es.foldl Ideal.step s

/-- Messages come from the five macros (src/lib.rs:43-72): none has level `Off`. -/
def Ev.Real : Ev → Prop
  | .log level _ => level ≠ .off
  | _ => True

/-! ### Proofs -/

theorem allows_iff (l m : LogLevel) (hm : m ≠ .off) : allows l m = true ↔ m.code ≤ l.code := by
  cases l <;> cases m <;> first | exact absurd rfl hm | decide

theorem lt_iff (l m : LogLevel) (hm : m ≠ .off) : l.code < m.code ↔ ¬ allows l m = true := by
  rw [allows_iff l m hm]; omega

/-- What the jobs deliver, with the logger left in charge. -/
def deliver (inner : Option Nat) : List Job → List Delivery
  | [] => []
  | .write level msg :: js => shown inner level msg ++ deliver inner js
  | .setLogger l :: js => deliver l js

/-- The logger in charge after the jobs. -/
def charge (inner : Option Nat) : List Job → Option Nat
  | [] => inner
  | .write _ _ :: js => charge inner js
  | .setLogger l :: js => charge l js

theorem deliver_append (i : Option Nat) (xs ys : List Job) :
    deliver i (xs ++ ys) = deliver i xs ++ deliver (charge i xs) ys := by
  induction xs generalizing i with
  | nil => rfl
  | cons x xs ih => cases x <;> simp [deliver, charge, ih]

theorem charge_append (i : Option Nat) (xs ys : List Job) : charge i (xs ++ ys) = charge (charge i xs) ys := by
  induction xs generalizing i with
  | nil => rfl
  | cons x xs ih => cases x <;> simp [charge, ih]

/-- No logger panics. -/
def good : Nat → Method → String → Bool := fun _ _ _ => false

theorem exec_good (j : Job) (w : Writer) :
    exec good () j w = .done ⟨charge w.inner [j], w.out ++ deliver w.inner [j]⟩ := by
  obtain ⟨inner, out⟩ := w
  cases j with
  | setLogger l => simp [exec, charge, deliver]
  | write level msg => cases inner <;> cases level <;> simp [exec, charge, deliver, shown, redirect, good]

theorem execAll_good (js : List (Unit × Job)) (w : Writer) :
    Looper.execAll (exec good) w js = .done ⟨charge w.inner (js.map (·.2)), w.out ++ deliver w.inner (js.map (·.2))⟩ := by
  induction js generalizing w with
  | nil => simp [Looper.execAll, charge, deliver]
  | cons x js ih =>
    obtain ⟨u, j⟩ := x
    cases u
    simp only [Looper.execAll, exec_good, Run.andThen, ih, List.map_cons]
    have h1 := charge_append w.inner [j] (js.map (·.2))
    have h2 := deliver_append w.inner [j] (js.map (·.2))
    simp only [List.singleton_append] at h1 h2
    rw [h1, h2, List.append_assoc]

/-- The state of the logger against the ideal one. -/
structure Sim (s : St) (i : Ideal) : Prop where
  level : s.level = i.level.code
  pending : s.pending = i.pending
  real : ∀ p ∈ s.pending, p.1 ≠ .off
  inv : Looper.Inv (exec good) {} s.lp
  sender : s.lp.sender = true
  late : s.lp.late = []
  logger : charge none s.lp.pushed = i.logger
  out : deliver none s.lp.pushed = i.out

theorem push_pushed {s : Looper.St Unit Job Writer} (hs : s.sender = true) (j : Job) :
    (Looper.push s j).pushed = s.pushed ++ [j] ∧ (Looper.push s j).sender = true ∧ (Looper.push s j).late = s.late := by
  simp [Looper.push, hs]

theorem sim_step {s s' : St} {i : Ideal} {e : Ev} {p : Bool} (h : Sim s i) (hr : e.Real)
    (hs : step good s e = some (s', p)) : Sim s' (i.step e) := by
  cases e with
  | setLevel l =>
    simp only [step, Option.some.injEq, Prod.mk.injEq] at hs
    obtain ⟨rfl, _⟩ := hs
    exact ⟨rfl, h.pending, h.real, h.inv, h.sender, h.late, h.logger, h.out⟩
  | log level msg =>
    have hr : level ≠ .off := hr
    simp only [step, h.level] at hs
    by_cases ha : allows i.level level = true
    · rw [if_neg (by rw [lt_iff _ _ hr]; exact fun h => h ha)] at hs
      simp only [Option.some.injEq, Prod.mk.injEq] at hs
      obtain ⟨rfl, _⟩ := hs
      simp only [Ideal.step, ha, if_true]
      refine ⟨rfl, by simp [h.pending], ?_, h.inv, h.sender, h.late, h.logger, h.out⟩
      intro p hp
      simp only [List.mem_append, List.mem_singleton] at hp
      rcases hp with hp | rfl
      · exact h.real p hp
      · exact hr
    · rw [if_pos ((lt_iff _ _ hr).mpr ha)] at hs
      simp only [Option.some.injEq, Prod.mk.injEq] at hs
      obtain ⟨rfl, _⟩ := hs
      simp only [Ideal.step, ha]
      exact h
  | queue k =>
    simp only [step] at hs
    split at hs
    · cases hs
    · rename_i level msg hk
      injection hs with hs; injection hs with h1 h2; subst h1
      have hk' := hk; rw [h.pending] at hk'
      obtain ⟨q1, q2, q3⟩ := push_pushed h.sender (.write level msg)
      simp only [Ideal.step, hk']
      refine ⟨h.level, by simp [h.pending], fun p hp => h.real p (List.mem_of_mem_eraseIdx hp), Looper.inv_push h.inv _, q2, by rw [q3]; exact h.late, ?_, ?_⟩
      · simp only [q1, charge_append, h.logger]; rfl
      · simp only [q1, deliver_append, h.logger, h.out]; simp [deliver]
  | setLogger l =>
    simp only [step, Option.some.injEq, Prod.mk.injEq] at hs
    obtain ⟨rfl, _⟩ := hs
    obtain ⟨q1, q2, q3⟩ := push_pushed h.sender (.setLogger l)
    refine ⟨h.level, h.pending, h.real, Looper.inv_push h.inv _, q2, by rw [q3]; exact h.late, ?_, ?_⟩
    · simp only [q1, charge_append]; rfl
    · simp only [q1, deliver_append, h.out]; simp [deliver, Ideal.step]
  | send =>
    simp only [step] at hs
    split at hs
    · rename_i ho
      simp only [Option.some.injEq, Prod.mk.injEq] at hs
      obtain ⟨rfl, _⟩ := hs
      have e1 : (Looper.send s.lp).1.pushed = s.lp.pushed ∧ (Looper.send s.lp).1.late = s.lp.late ∧
          (Looper.send s.lp).1.sender = s.lp.sender := by
        unfold Looper.send; split
        · split <;> exact ⟨rfl, rfl, rfl⟩
        · exact ⟨rfl, rfl, rfl⟩
      exact ⟨h.level, h.pending, h.real, Looper.inv_send h.inv ho, e1.2.2.trans h.sender, e1.2.1.trans h.late,
        by simp only [e1.1]; exact h.logger, by simp only [e1.1]; exact h.out⟩
    · cases hs
  | io =>
    simp only [step, Option.map_eq_some_iff] at hs
    obtain ⟨lp, hlp, hs⟩ := hs
    injection hs with h1 h2; subst h1
    obtain ⟨q1, q2, q3⟩ := Looper.sender_io hlp
    exact ⟨h.level, h.pending, h.real, Looper.inv_io h.inv () hlp, q1.trans h.sender, q3.trans h.late,
      by simp only [q2]; exact h.logger, by simp only [q2]; exact h.out⟩

theorem sim_run (es : List Ev) {s s' : St} {i : Ideal} {ps : List Bool} (h : Sim s i) (hr : ∀ e ∈ es, e.Real)
    (hs : run good s es = some (s', ps)) : Sim s' (i.run es) := by
  induction es generalizing s i ps with
  | nil => simp only [run, Option.some.injEq, Prod.mk.injEq] at hs; obtain ⟨rfl, _⟩ := hs; exact h
  | cons e es ih =>
    unfold run at hs
    split at hs
    · cases hs
    · rename_i s1 p1 h1
      split at hs
      · cases hs
      · rename_i s2 ps2 h2
        injection hs with hs; injection hs with h3 h4; subst h3
        exact ih (sim_step h (hr e (by simp)) h1) (fun e he => hr e (by simp [he])) h2

theorem sim_start : Sim {} {} :=
  ⟨rfl, rfl, by simp, Looper.inv_new _ _, rfl, rfl, rfl, rfl⟩

/-- The log thread has nothing to do. -/
def AtRest (s : St) : Prop := s.pending = [] ∧ s.lp.owed = 0 ∧ s.lp.io = .recv ∧ s.lp.chan = []

/-- **C37.** After any history of `set_log_level`, `set_logger` and log calls in any number of threads, what has come
out is a first part of what an ideal logger, one without a background thread and a queue, would have shown: for each
message, in order, and exactly once, if and only if the level in force when it was logged allows it, on the method named
like its level; and all of it once the log thread is at rest. -/
theorem C37_level_filter (es : List Ev) (s : St) (ps : List Bool) (hr : ∀ e ∈ es, e.Real)
    (h : run good {} es = some (s, ps)) :
    s.lp.cb.out <+: (Ideal.run {} es).out ∧ (AtRest s → s.lp.cb.out = (Ideal.run {} es).out) := by
  have S := sim_run es sim_start hr h
  have hcb := S.inv.cbRan
  rw [execAll_good] at hcb
  have hcb' : s.lp.cb.out = deliver none (s.lp.ran.map (·.2)) := by
    split at hcb
    · cases hcb
    · injection hcb with hcb; rw [← hcb]; rfl
  have hp := S.inv.ran_prefix
  rw [S.late, List.append_nil] at hp
  obtain ⟨rest, hrest⟩ := hp
  refine ⟨⟨deliver (charge none (s.lp.ran.map (·.2))) rest, ?_⟩, fun ⟨_, a1, a2, a3⟩ => ?_⟩
  · rw [hcb', ← S.out, ← hrest, deliver_append]
  · have hb := S.inv.bufEmpty (.inl a2)
    have hlen : s.lp.pushed.length ≤ s.lp.ran.length := by
      rcases S.inv.wake with w | w | w | w | w | w
      · simp [a2] at w
      · simp [a2] at w
      · simpa [hb] using w
      · omega
      · simp [a3] at w
      · simp [a2] at w
    have : rest = [] := by
      have := congrArg List.length hrest
      simp only [List.length_append, List.length_map] at this
      exact List.length_eq_zero_iff.mp (by omega)
    rw [hcb', ← S.out, ← hrest, this, List.append_nil]

/-- **C37**, the codes: the integers of the C and JNI interfaces that name a level are exactly 0 to 5, each level has its
own, and a level sent as its code arrives as itself. -/
theorem C37_codes : (∀ l : LogLevel, LogLevel.ofCode l.code = some l) ∧
    (∀ v l, LogLevel.ofCode v = some l ↔ v = l.code) ∧ (∀ v, (LogLevel.ofCode v).isSome ↔ 0 ≤ v ∧ v ≤ 5) := by
  refine ⟨fun l => by cases l <;> decide, fun v l => ⟨?_, ?_⟩, fun v => ⟨?_, ?_⟩⟩
  · intro h
    unfold LogLevel.ofCode at h
    repeat' split at h
    all_goals first | (injection h with h; subst h; assumption) | (cases h; done)
  · rintro rfl; cases l <;> decide
  · intro h
    unfold LogLevel.ofCode at h
    repeat' split at h
    all_goals first | (cases h; done) | (simp only [LogLevel.code] at *; omega)
  · rintro ⟨h1, h2⟩
    have : v = 0 ∨ v = 1 ∨ v = 2 ∨ v = 3 ∨ v = 4 ∨ v = 5 := by omega
    rcases this with rfl | rfl | rfl | rfl | rfl | rfl <;> decide

/-! ### C38 -/

theorem ideal_run_append (i : Ideal) (xs ys : List Ev) : i.run (xs ++ ys) = (i.run xs).run ys := by
  simp [Ideal.run, List.foldl_append]

/-- The event puts a message into the queue. -/
def Ev.queues : Ev → Bool
  | .queue _ => true
  | _ => false

/-- The event changes the logger. -/
def Ev.sets : Ev → Bool
  | .setLogger _ => true
  | _ => false

theorem shown_to (l : Nat) (level : LogLevel) (msg : String) (h : level ≠ .off) :
    ∃ m, shown (some l) level msg = [.call l m msg] := by
  cases level <;> simp_all [shown]

/-- From a state whose logger is `l`, as long as it is not exchanged. -/
theorem to_logger {l : Nat} (es : List Ev) {s s' : St} {i : Ideal} {ps : List Bool} (h : Sim s i) (hr : ∀ e ∈ es, e.Real)
    (hs : run good s es = some (s', ps)) (hl : i.logger = some l) (hn : ∀ e ∈ es, e.sets = false) :
    ∃ after, (i.run es).out = i.out ++ after ∧ after.length = es.countP (·.queues) ∧
      ∀ d ∈ after, ∃ m msg, d = .call l m msg := by
  induction es generalizing s i ps with
  | nil => exact ⟨[], by simp [Ideal.run]⟩
  | cons e es ih =>
    unfold run at hs
    split at hs
    · cases hs
    · rename_i s1 p1 h1
      split at hs
      · cases hs
      · rename_i s2 ps2 h2
        injection hs with hs; injection hs with h3 h4; subst h3
        have hS := sim_step h (hr e (by simp)) h1
        have hl' : (i.step e).logger = some l := by
          cases e <;> simp only [Ideal.step] <;> (try split) <;> first | exact hl | skip
          · exact absurd (hn _ (List.mem_cons_self ..)) (by simp [Ev.sets])
        obtain ⟨after, a1, a2, a3⟩ := ih hS (fun e he => hr e (by simp [he])) h2 hl' (fun e he => hn e (by simp [he]))
        have hrun : i.run (e :: es) = (i.step e).run es := rfl
        rw [hrun, a1, List.countP_cons]
        by_cases hq : e.queues = true
        · cases e with
          | queue k =>
            simp only [step] at h1
            split at h1
            · cases h1
            · rename_i level msg hk
              have hreal := h.real _ (List.mem_of_getElem? hk)
              rw [h.pending] at hk
              obtain ⟨m, hm⟩ := shown_to l level msg hreal
              refine ⟨.call l m msg :: after, ?_, by simp [a2, Ev.queues], ?_⟩
              · simp [Ideal.step, hk, hl, hm]
              · intro d hd
                rcases List.mem_cons.mp hd with rfl | hd
                · exact ⟨m, msg, rfl⟩
                · exact a3 d hd
          | _ => simp [Ev.queues] at hq
        · refine ⟨after, ?_, by simp [a2, hq], a3⟩
          have : (i.step e).out = i.out := by
            cases e <;> simp only [Ideal.step] <;> (try split) <;> first | rfl | exact absurd rfl hq
          rw [this]

/-- **C38.** Whatever was going on before, after `set_logger(l)` and once the log thread is at rest: the messages queued
before it went where they would have gone anyway, and every message queued after it went to `l`, each exactly once
(as long as no other `set_logger` follows). -/
theorem C38_switch (es1 es2 : List Ev) (l : Nat) (s : St) (ps : List Bool) (hr : ∀ e ∈ es1 ++ .setLogger (some l) :: es2, e.Real)
    (h : run good {} (es1 ++ .setLogger (some l) :: es2) = some (s, ps)) (hrest : AtRest s) (hn : ∀ e ∈ es2, e.sets = false) :
    ∃ after, s.lp.cb.out = (Ideal.run {} es1).out ++ after ∧ after.length = es2.countP (·.queues) ∧
      ∀ d ∈ after, ∃ m msg, d = .call l m msg := by
  have h1 := (C37_level_filter _ s ps hr h).2 hrest
  have key : ∀ (es : List Ev) (a b : St) (i : Ideal) (ps : List Bool), Sim a i → (∀ e ∈ es ++ .setLogger (some l) :: es2, e.Real) →
      run good a (es ++ .setLogger (some l) :: es2) = some (b, ps) →
      ∃ c ps', Sim c ((i.run es).step (.setLogger (some l))) ∧ run good c es2 = some (b, ps') := by
    intro es
    induction es with
    | nil =>
      intro a b i ps hS hr h
      simp only [List.nil_append] at h
      unfold run at h
      split at h
      · cases h
      · rename_i s1 p1 hs1
        split at h
        · cases h
        · rename_i s2 ps2 h2
          injection h with h; injection h with h3 h4; subst h3
          exact ⟨s1, ps2, sim_step hS (by simp [Ev.Real]) hs1, h2⟩
    | cons e es ih =>
      intro a b i ps hS hr h
      simp only [List.cons_append] at h
      unfold run at h
      split at h
      · cases h
      · rename_i s1 p1 hs1
        split at h
        · cases h
        · rename_i s2 ps2 h2
          injection h with h; injection h with h3 h4; subst h3
          exact ih s1 s2 (i.step e) ps2 (sim_step hS (hr e (by simp)) hs1) (fun e he => hr e (by simp only [List.cons_append, List.mem_cons]; exact .inr he)) h2
  obtain ⟨c, ps', hc, hrun⟩ := key es1 {} s {} ps sim_start hr h
  obtain ⟨after, a1, a2, a3⟩ := to_logger es2 hc (fun e he => hr e (by simp [he])) hrun rfl hn
  refine ⟨after, ?_, a2, a3⟩
  rw [h1, ideal_run_append]
  exact a1

/-- The messages that are queued during `es`, in that order, when the level is `lv` and the messages `p` are on their way at the beginning.  No logger is mentioned. -/
def queuedMsgs : LogLevel → List (LogLevel × String) → List Ev → List (LogLevel × String)
  | _, _, [] => []
  | _, p, .setLevel lv :: es => queuedMsgs lv p es
  | lv, p, .log level msg :: es => if allows lv level then queuedMsgs lv (p ++ [(level, msg)]) es else queuedMsgs lv p es
  | lv, p, .queue k :: es =>
    match p[k]? with
    | none => queuedMsgs lv p es
    | some x => x :: queuedMsgs lv (p.eraseIdx k) es
  | lv, p, .setLogger _ :: es => queuedMsgs lv p es
  | lv, p, .send :: es => queuedMsgs lv p es
  | lv, p, .io :: es => queuedMsgs lv p es

theorem ideal_queued {l : Option Nat} (es : List Ev) : ∀ {i : Ideal}, i.logger = l → (∀ e ∈ es, e.sets = false) →
    (i.run es).out = i.out ++ (queuedMsgs i.level i.pending es).flatMap fun x => shown l x.1 x.2 := by
  induction es with
  | nil => intro i _ _; simp [Ideal.run, queuedMsgs]
  | cons e es ih =>
    intro i hl hn
    have hrun : i.run (e :: es) = (i.step e).run es := rfl
    have hn' : ∀ e ∈ es, e.sets = false := fun e he => hn e (List.mem_cons_of_mem _ he)
    rw [hrun]
    cases e with
    | setLogger x => exact absurd (hn _ List.mem_cons_self) (by simp [Ev.sets])
    | setLevel lv => rw [ih (by simpa [Ideal.step] using hl) hn']; rfl
    | send => rw [ih (by simpa [Ideal.step] using hl) hn']; rfl
    | io => rw [ih (by simpa [Ideal.step] using hl) hn']; rfl
    | log level msg =>
      by_cases ha : allows i.level level = true
      · have hst : i.step (.log level msg) = { i with pending := i.pending ++ [(level, msg)] } := by simp [Ideal.step, ha]
        rw [hst, ih (by exact hl) hn']
        simp [queuedMsgs, ha]
      · have hst : i.step (.log level msg) = i := by simp [Ideal.step, ha]
        rw [hst, ih hl hn']
        simp [queuedMsgs, ha]
    | queue k =>
      cases hk : i.pending[k]? with
      | none =>
        have hst : i.step (.queue k) = i := by simp [Ideal.step, hk]
        rw [hst, ih hl hn']
        simp [queuedMsgs, hk]
      | some x =>
        obtain ⟨level, msg⟩ := x
        have hst : i.step (.queue k) = { i with pending := i.pending.eraseIdx k, out := i.out ++ shown i.logger level msg } := by simp [Ideal.step, hk]
        rw [hst, ih (by exact hl) hn']
        simp [queuedMsgs, hk, hl]

/-- **C38**, which messages: between `set_logger(l1)` and `set_logger(l2)`, exactly the messages queued between them go to `l1`, and exactly those queued afterwards to `l2`, in the order
in which they were queued, on the method named like their level (`shown`), whatever came before (`es1`), once the log thread is at rest. -/
theorem C38_messages (es1 es2 es3 : List Ev) (l1 l2 : Option Nat) (s : St) (ps : List Bool)
    (hr : ∀ e ∈ es1 ++ .setLogger l1 :: (es2 ++ .setLogger l2 :: es3), e.Real)
    (h : run good {} (es1 ++ .setLogger l1 :: (es2 ++ .setLogger l2 :: es3)) = some (s, ps)) (hrest : AtRest s)
    (hn2 : ∀ e ∈ es2, e.sets = false) (hn3 : ∀ e ∈ es3, e.sets = false) :
    s.lp.cb.out = (Ideal.run {} es1).out ++
      ((queuedMsgs (Ideal.run {} es1).level (Ideal.run {} es1).pending es2).flatMap fun x => shown l1 x.1 x.2) ++
      ((queuedMsgs (Ideal.run {} (es1 ++ es2)).level (Ideal.run {} (es1 ++ es2)).pending es3).flatMap fun x => shown l2 x.1 x.2) := by
  have h1 := (C37_level_filter _ s ps hr h).2 hrest
  have hsame : ∀ (es : List Ev) (i j : Ideal), i.level = j.level → i.pending = j.pending → (i.run es).level = (j.run es).level ∧ (i.run es).pending = (j.run es).pending := by
    intro es
    induction es with
    | nil => intro i j a b; exact ⟨a, b⟩
    | cons e es ih =>
      intro i j a b
      refine ih (i.step e) (j.step e) ?_ ?_
      · cases e <;> simp only [Ideal.step, a, b] <;> (try split) <;> simp_all
      · cases e <;> simp only [Ideal.step, a, b] <;> (try split) <;> simp_all
  have e1 : Ideal.run {} (es1 ++ .setLogger l1 :: (es2 ++ .setLogger l2 :: es3)) =
      Ideal.run ((Ideal.run ((Ideal.run {} es1).step (.setLogger l1)) es2).step (.setLogger l2)) es3 := by
    rw [ideal_run_append]
    show Ideal.run ((Ideal.run {} es1).step (.setLogger l1)) (es2 ++ .setLogger l2 :: es3) = _
    rw [ideal_run_append]
    rfl
  have h12 := hsame es2 ((Ideal.run {} es1).step (.setLogger l1)) (Ideal.run {} es1) rfl rfl
  rw [h1, e1, ideal_queued (l := l2) es3 rfl hn3]
  have e2 : ((Ideal.run ((Ideal.run {} es1).step (.setLogger l1)) es2).step (.setLogger l2)).out = (Ideal.run ((Ideal.run {} es1).step (.setLogger l1)) es2).out := rfl
  have e3 : ((Ideal.run ((Ideal.run {} es1).step (.setLogger l1)) es2).step (.setLogger l2)).level = (Ideal.run {} (es1 ++ es2)).level := by
    rw [ideal_run_append]; exact h12.1
  have e4 : ((Ideal.run ((Ideal.run {} es1).step (.setLogger l1)) es2).step (.setLogger l2)).pending = (Ideal.run {} (es1 ++ es2)).pending := by
    rw [ideal_run_append]; exact h12.2
  rw [e2, e3, e4, ideal_queued (l := l1) es2 rfl hn2]
  rfl

/-! ### C51: loggers that panic -/

theorem sim_alive {s : St} {i : Ideal} (h : Sim s i) : s.lp.io ≠ .dead ∧ s.lp.io ≠ .exited := by
  refine ⟨fun hd => ?_, fun he => ?_⟩
  · have := h.inv.cbRan
    rw [execAll_good] at this
    simp [hd] at this
  · have := h.inv.exitedClosed he
    simp [h.sender] at this

/-- **C51 in part**: as long as no logger panics, no log call and no `set_logger` panics. -/
theorem C51_partial (es : List Ev) (s : St) (ps : List Bool) (hr : ∀ e ∈ es, e.Real) (h : run good {} es = some (s, ps)) :
    ∀ p ∈ ps, p = false := by
  have key : ∀ (es : List Ev) (a b : St) (i : Ideal) (ps : List Bool), Sim a i → (∀ e ∈ es, e.Real) → run good a es = some (b, ps) →
      ∀ p ∈ ps, p = false := by
    intro es
    induction es with
    | nil => intro a b i ps _ _ h; simp only [run, Option.some.injEq, Prod.mk.injEq] at h; obtain ⟨_, rfl⟩ := h; simp
    | cons e es ih =>
      intro a b i ps hS hr h
      unfold run at h
      split at h
      · cases h
      · rename_i s1 p1 hs1
        split at h
        · cases h
        · rename_i s2 ps2 h2
          injection h with h; injection h with h3 h4; subst h4
          intro p hp
          rcases List.mem_cons.mp hp with rfl | hp
          · obtain ⟨l1, l2⟩ := sim_alive hS
            cases e with
            | send =>
              simp only [step] at hs1
              split at hs1
              · injection hs1 with hs1; injection hs1 with h5 h6
                rw [← h6]
                simp [Looper.send, hS.sender, l1, l2]
              · cases hs1
            | io =>
              simp only [step, Option.map_eq_some_iff] at hs1
              obtain ⟨lp, hlp, hs1⟩ := hs1
              injection hs1 with h5 h6; exact h6.symm
            | log level msg =>
              simp only [step] at hs1
              split at hs1 <;> (injection hs1 with hs1; injection hs1 with h5 h6; exact h6.symm)
            | queue k =>
              simp only [step] at hs1
              split at hs1
              · cases hs1
              · injection hs1 with hs1; injection hs1 with h5 h6; exact h6.symm
            | _ => simp only [step, Option.some.injEq, Prod.mk.injEq] at hs1; exact hs1.2.symm
          · exact ih s1 s2 _ ps2 (sim_step hS (hr e (by simp)) hs1) (fun e he => hr e (by simp [he])) h2 p hp
  exact key es {} s {} ps sim_start hr h

/-- Once the log thread is gone it stays gone, and from then on every log call that passes the filter, and every
`set_logger`, panics in the thread that makes it - inside the library, wherever it logs. -/
theorem dead_run (bad : Nat → Method → String → Bool) (es : List Ev) {s s' : St} {ps : List Bool} (hd : s.lp.io = .dead)
    (h : run bad s es = some (s', ps)) :
    s'.lp.io = .dead ∧ ∀ p ∈ es.zip ps, p.1 = .send → p.2 = true := by
  induction es generalizing s ps with
  | nil => simp only [run, Option.some.injEq, Prod.mk.injEq] at h; obtain ⟨rfl, rfl⟩ := h; simp [hd]
  | cons e es ih =>
    unfold run at h
    split at h
    · cases h
    · rename_i s1 p1 hs1
      split at h
      · cases h
      · rename_i s2 ps2 h2
        injection h with h; injection h with h3 h4; subst h3; subst h4
        have hd1 : s1.lp.io = .dead ∧ (e = .send → p1 = true) := by
          cases e with
          | setLevel l => simp only [step, Option.some.injEq, Prod.mk.injEq] at hs1; obtain ⟨rfl, _⟩ := hs1; exact ⟨hd, by simp⟩
          | log level msg =>
            simp only [step] at hs1
            split at hs1 <;> (injection hs1 with hs1; injection hs1 with h5 h6; subst h5; exact ⟨hd, by simp⟩)
          | queue k =>
            simp only [step] at hs1
            split at hs1
            · cases hs1
            · injection hs1 with hs1; injection hs1 with h5 h6; subst h5
              refine ⟨?_, by simp⟩
              simp only [Looper.push]; split <;> exact hd
          | setLogger l =>
            simp only [step, Option.some.injEq, Prod.mk.injEq] at hs1; obtain ⟨rfl, _⟩ := hs1
            refine ⟨?_, by simp⟩
            simp only [Looper.push]; split <;> exact hd
          | send =>
            simp only [step] at hs1
            split at hs1
            · injection hs1 with hs1; injection hs1 with h5 h6
              subst h5; subst h6
              unfold Looper.send
              split
              · rw [if_pos (.inl hd)]; exact ⟨hd, fun _ => rfl⟩
              · exact ⟨hd, fun _ => rfl⟩
            · cases hs1
          | io => simp [step, Looper.ioStep, hd] at hs1
        obtain ⟨i1, i2⟩ := ih hd1.1 h2
        refine ⟨i1, ?_⟩
        intro p hp
        simp only [List.zip_cons_cons, List.mem_cons] at hp
        rcases hp with rfl | hp
        · exact hd1.2
        · exact i2 p hp

/-- A logger that cannot stand the message "boom". -/
def touchy : Nat → Method → String → Bool := fun _ _ msg => msg == "boom"

/-- **C51 is false of this program**: a logger panics once; then every later call into the library that logs anything
panics too - also messages of other kinds, also after another logger has been asked for (which itself panics) - and
nothing more is ever delivered. -/
theorem C51_refuted :
    ∃ (es : List Ev) (s : St) (ps : List Bool), run touchy {} es = some (s, ps) ∧ (∀ p ∈ ps, p = false) ∧
      s.lp.cb.out = [.call 7 .info "boom"] ∧
      ∀ (es' : List Ev) (s' : St) (ps' : List Bool), run touchy s es' = some (s', ps') →
        s'.lp.cb.out = [.call 7 .info "boom"] ∧ ∀ p ∈ es'.zip ps', p.1 = .send → p.2 = true := by
  refine ⟨[.setLogger (some 7), .send, .log .info "boom", .queue 0, .send, .io, .io, .io, .io, .io], _, _, rfl, by decide, by decide, ?_⟩
  intro es' s' ps' h
  refine ⟨?_, (dead_run touchy es' rfl h).2⟩
  have key : ∀ (es : List Ev) (a b : St) (ps : List Bool), a.lp.io = .dead → run touchy a es = some (b, ps) → b.lp.cb.out = a.lp.cb.out := by
    intro es
    induction es with
    | nil => intro a b ps _ h; simp only [run, Option.some.injEq, Prod.mk.injEq] at h; obtain ⟨rfl, _⟩ := h; rfl
    | cons e es ih =>
      intro a b ps hd h
      have h0 := h
      unfold run at h
      split at h
      · cases h
      · rename_i s1 p1 hs1
        split at h
        · cases h
        · rename_i s2 ps2 h2
          injection h with h; injection h with h3 h4; subst h3
          have hd1 := (dead_run touchy [e] hd (s' := s1) (ps := [p1]) (by simp [run, hs1])).1
          rw [ih s1 s2 ps2 hd1 h2]
          cases e with
          | setLevel l => simp only [step, Option.some.injEq, Prod.mk.injEq] at hs1; obtain ⟨rfl, _⟩ := hs1; rfl
          | log level msg =>
            simp only [step] at hs1
            split at hs1 <;> (injection hs1 with hs1; injection hs1 with h5 h6; subst h5; rfl)
          | queue k =>
            simp only [step] at hs1
            split at hs1
            · cases hs1
            · injection hs1 with hs1; injection hs1 with h5 h6; subst h5
              simp only [Looper.push]; split <;> rfl
          | setLogger l =>
            simp only [step, Option.some.injEq, Prod.mk.injEq] at hs1; obtain ⟨rfl, _⟩ := hs1
            simp only [Looper.push]; split <;> rfl
          | send =>
            simp only [step] at hs1
            split at hs1
            · injection hs1 with hs1; injection hs1 with h5 h6; subst h5
              unfold Looper.send
              split
              · split <;> rfl
              · rfl
            · cases hs1
          | io => simp [step, Looper.ioStep, hd] at hs1
  exact key es' _ s' ps' rfl h

/-! ### The hypotheses can be met -/

/-- Two threads log and a third changes level and logger in between; then the log thread comes to rest. -/
def demoLog : List Ev :=
  [.log .info "a", .setLevel .warn, .log .info "b", .log .error "c", .queue 1, .setLogger (some 3), .send, .queue 0, .send, .send,
   .log .warn "d", .queue 0, .send] ++ List.replicate 16 .io

example : (run good {} demoLog).map (fun p => p.1.lp.cb.out) =
    some [.print .error "c", .call 3 .info "a", .call 3 .warn "d"] := by decide +kernel
example : (run good {} demoLog).map (fun p => (p.1.pending.length, p.1.lp.owed, p.1.lp.io, p.1.lp.chan.length)) =
    some (0, 0, .recv, 0) := by decide +kernel

example : (Ideal.run {} demoLog).out = [.print .error "c", .call 3 .info "a", .call 3 .warn "d"] := by decide +kernel

example : ∀ e ∈ demoLog, e.Real := by
  intro e he
  simp only [demoLog, List.cons_append, List.nil_append, List.mem_cons] at he
  rcases he with rfl | rfl | rfl | rfl | rfl | rfl | rfl | rfl | rfl | rfl | rfl | rfl | rfl | he <;>
    first | (simp [Ev.Real]; done) | (obtain ⟨_, rfl⟩ := List.mem_replicate.mp he; trivial)

/-- The hypotheses of `C38_messages` are met: "a" is queued before the first switch, "b" (logged before it) and "c" between the two, "d" afterwards. -/
def demoSwitch1 : List Ev := [.log .info "a", .log .warn "b", .queue 0, .send]
def demoSwitch2 : List Ev := [.send, .queue 0, .send, .log .error "c", .queue 0, .send]
def demoSwitch3 : List Ev := [.send, .log .debug "d", .queue 0, .send] ++ List.replicate 24 .io

example : (run good {} (demoSwitch1 ++ .setLogger (some 3) :: (demoSwitch2 ++ .setLogger (some 4) :: demoSwitch3))).map
    (fun p => (p.1.lp.cb.out, p.1.pending.length, p.1.lp.owed, p.1.lp.io, p.1.lp.chan.length)) =
    some ([.print .info "a", .call 3 .warn "b", .call 3 .error "c", .call 4 .debug "d"], 0, 0, .recv, 0) ∧
    (∀ e ∈ demoSwitch2, e.sets = false) ∧ (∀ e ∈ demoSwitch3, e.sets = false) ∧
    queuedMsgs (Ideal.run {} demoSwitch1).level (Ideal.run {} demoSwitch1).pending demoSwitch2 = [(.warn, "b"), (.error, "c")] := by decide +kernel

end Mmkv.Log
