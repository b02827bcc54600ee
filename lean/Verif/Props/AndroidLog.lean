import Verif.Model.AndroidLog
import Verif.Props.Logger
import Verif.Props.JniString
/-!
# Logging on Android: C76, C77
-/

namespace Mmkv.ALog
open Log (Method redirect allows)

/-! ### What a user has in mind -/

/-- The method of a Kotlin `Logger` for a level. -/
def methodOf : LogLevel → List Method
  | .off => []
  | .error => [.error]
  | .warn => [.warn]
  | .info => [.info]
  | .debug => [.debug]
  | .verbose => [.verbose]

/-- The calls of loggers in a record of deliveries: which method, with which Kotlin string. -/
def received (out : List Delivery) : List (Method × Jni.JStr) :=
  out.filterMap fun
    | .call _ m js => some (m, js)
    | .print _ _ => none

/-- A logger without a thread, a queue or a Java machine: the level in force, the calls between filter and queue, and every
message received so far: the method, and the text as Kotlin has it. -/
structure Ideal where
  level : LogLevel := .verbose
  pending : List (LogLevel × String) := []
  out : List (Method × Jni.JStr) := []

/-- Every message let through is received, once, in order. -/
def Ideal.step (s : Ideal) : Ev → Ideal
  | .setLevel l => { s with level := l }
  | .log level msg => if allows s.level level then { s with pending := s.pending ++ [(level, msg)] } else s
  | .queue k =>
    match s.pending[k]? with
    | none => s
    | some (level, msg) =>
      { s with pending := s.pending.eraseIdx k, out := s.out ++ (methodOf level).map fun m => (m, Jni.utf16 msg) }
  | .setLogger _ => s
  | .send => s
  | .io => s

/-- The ideal logger after a history. -/
def Ideal.run (s : Ideal) (es : List Ev) : Ideal := es.foldl Ideal.step s

/-- Messages come from the five macros (src/lib.rs:43-72): none has level `Off`. -/
def Ev.Real : Ev → Prop
  | .log level _ => level ≠ .off
  | _ => True

/-- The event is a message being queued. -/
def Ev.queues : Ev → Bool
  | .queue _ => true
  | _ => false

/-- No logger throws. -/
def kind : Nat → Method → Jni.JStr → Bool := fun _ _ _ => false

/-- The log thread has nothing to do. -/
def AtRest (s : St) : Prop := s.pending = [] ∧ s.lp.owed = 0 ∧ s.lp.io = .recv ∧ s.lp.chan = []

/-! ### Proofs -/

/-- What a job makes loggers receive. -/
def jobShown : Job → List (Method × Jni.JStr)
  | .write level msg => (methodOf level).map fun m => (m, Jni.utf16 msg)
  | .attach => []

theorem received_append (xs ys : List Delivery) : received (xs ++ ys) = received xs ++ received ys := by
  simp [received]

theorem exec_attached {cap java : Nat} {w : Writer} (ha : w.attached = true) (hc : w.refs + 2 ≤ cap) (level : LogLevel) (msg : String) :
    ∃ w', exec cap kind java (.write level msg) w = .done w' ∧ w'.attached = true ∧ w'.aborted = w.aborted ∧
      w'.refs ≤ w.refs + 2 ∧ received w'.out = received w.out ++ jobShown (.write level msg) := by
  have hcall : ∀ m, ∃ w', callJava cap kind java m msg w = .done w' ∧ w'.attached = true ∧ w'.aborted = w.aborted ∧
      w'.refs ≤ w.refs + 2 ∧ received w'.out = received w.out ++ [(m, Jni.utf16 msg)] := by
    intro m
    refine ⟨{ w with refs := w.refs + 1 + 1, out := w.out ++ [.call java m (Jni.utf16 msg)] }, ?_, ha, rfl, Nat.le_refl _, ?_⟩
    · unfold callJava newRef
      rw [if_pos (by omega)]
      simp only [C75_back]
      rw [if_pos (by omega)]
      simp [kind]
    · simp only [received_append]; rfl
  cases level with
  | off => exact ⟨w, by simp [exec, ha, redirect], ha, rfl, by omega, by simp [jobShown, methodOf]⟩
  | error => simpa [exec, ha, redirect, jobShown, methodOf] using hcall .error
  | warn => simpa [exec, ha, redirect, jobShown, methodOf] using hcall .warn
  | info => simpa [exec, ha, redirect, jobShown, methodOf] using hcall .info
  | debug => simpa [exec, ha, redirect, jobShown, methodOf] using hcall .debug
  | verbose => simpa [exec, ha, redirect, jobShown, methodOf] using hcall .verbose

theorem execAll_attached {cap : Nat} : ∀ (js : List (Nat × Job)) (w : Writer), w.attached = true → w.refs + 2 * js.length ≤ cap →
    ∃ w', Looper.execAll (exec cap kind) w js = .done w' ∧ w'.aborted = w.aborted ∧
      received w'.out = received w.out ++ (js.map (·.2)).flatMap jobShown := by
  intro js
  induction js with
  | nil => intro w _ _; exact ⟨w, rfl, rfl, by simp⟩
  | cons x js ih =>
    intro w ha hc
    obtain ⟨o, j⟩ := x
    simp only [List.length_cons] at hc
    have hstep : ∃ w1, exec cap kind o j w = .done w1 ∧ w1.attached = true ∧ w1.aborted = w.aborted ∧ w1.refs ≤ w.refs + 2 ∧
        received w1.out = received w.out ++ jobShown j := by
      cases j with
      | attach => exact ⟨{ w with attached := true }, rfl, rfl, rfl, by simp, by simp [jobShown]⟩
      | write level msg => exact exec_attached ha (by omega) level msg
    obtain ⟨w1, e1, a1, b1, r1, o1⟩ := hstep
    obtain ⟨w2, e2, b2, o2⟩ := ih w1 a1 (by omega)
    refine ⟨w2, ?_, b2.trans b1, ?_⟩
    · simp only [Looper.execAll, e1, Run.andThen_done, e2]
    · rw [o2, o1]; simp

theorem execAll_ok {cap : Nat} {ws : List Job} {js : List (Nat × Job)} (h : js.map (·.2) <+: .attach :: ws) (hb : 2 * js.length ≤ cap + 2) :
    ∃ w, Looper.execAll (exec cap kind) {} js = .done w ∧ w.aborted = false ∧ received w.out = (js.map (·.2)).flatMap jobShown := by
  cases js with
  | nil => exact ⟨{}, rfl, rfl, rfl⟩
  | cons x js =>
    obtain ⟨o, j⟩ := x
    obtain ⟨t, ht⟩ := h
    simp only [List.map_cons, List.cons_append, List.cons.injEq] at ht
    obtain ⟨rfl, _⟩ := ht
    simp only [List.length_cons] at hb
    obtain ⟨w, e, b, r⟩ := execAll_attached (cap := cap) js { attached := true } rfl (by simp; omega)
    refine ⟨w, ?_, b, ?_⟩
    · simp only [Looper.execAll, exec, Run.andThen_done]
      exact e
    · rw [r]; simp [received, jobShown]

/-- The state against the ideal logger. -/
structure Sim (cap : Nat) (s : St) (i : Ideal) (n : Nat) : Prop where
  level : s.level = i.level.code
  pending : s.pending = i.pending
  real : ∀ p ∈ s.pending, p.1 ≠ .off
  inv : Looper.Inv (exec cap kind) {} s.lp
  sender : s.lp.sender = true
  late : s.lp.late = []
  live : s.lp.io = .recv ∨ s.lp.io = .swap ∨ s.lp.io = .run
  whole : s.lp.cb.aborted = false
  jobs : ∃ ws, s.lp.pushed = .attach :: ws ∧ ws.length = n ∧ ws.flatMap jobShown = i.out

theorem push_fields {s : Looper.St Nat Job Writer} (hs : s.sender = true) (j : Job) :
    (Looper.push s j).pushed = s.pushed ++ [j] ∧ (Looper.push s j).sender = true ∧ (Looper.push s j).late = s.late ∧
      (Looper.push s j).io = s.io ∧ (Looper.push s j).cb = s.cb := by
  simp [Looper.push, hs]

theorem sim_step {cap : Nat} {s s' : St} {i : Ideal} {n : Nat} {e : Ev} {p : Bool} (h : Sim cap s i n) (hr : e.Real)
    (hn : 2 * (n + if e.queues then 1 else 0) ≤ cap) (hs : step cap kind s e = some (s', p)) :
    Sim cap s' (i.step e) (n + if e.queues then 1 else 0) ∧ p = false := by
  unfold step at hs
  rw [if_neg (by rw [h.whole]; decide)] at hs
  cases e with
  | setLevel l =>
    simp only [Option.some.injEq, Prod.mk.injEq] at hs
    obtain ⟨rfl, rfl⟩ := hs
    exact ⟨⟨rfl, h.pending, h.real, h.inv, h.sender, h.late, h.live, h.whole, h.jobs⟩, by trivial⟩
  | setLogger l =>
    simp only [Option.some.injEq, Prod.mk.injEq] at hs
    obtain ⟨rfl, rfl⟩ := hs
    exact ⟨⟨h.level, h.pending, h.real, h.inv, h.sender, h.late, h.live, h.whole, h.jobs⟩, by trivial⟩
  | log level msg =>
    have hr : level ≠ .off := hr
    simp only [h.level] at hs
    by_cases ha : allows i.level level = true
    · rw [if_neg (by rw [Log.lt_iff _ _ hr]; exact fun h => h ha)] at hs
      simp only [Option.some.injEq, Prod.mk.injEq] at hs
      obtain ⟨rfl, rfl⟩ := hs
      simp only [Ideal.step, ha, if_true]
      refine ⟨⟨rfl, by simp [h.pending], ?_, h.inv, h.sender, h.late, h.live, h.whole, h.jobs⟩, by trivial⟩
      intro p hp
      simp only [List.mem_append, List.mem_singleton] at hp
      rcases hp with hp | rfl
      · exact h.real p hp
      · exact hr
    · rw [if_pos ((Log.lt_iff _ _ hr).mpr ha)] at hs
      simp only [Option.some.injEq, Prod.mk.injEq] at hs
      obtain ⟨rfl, rfl⟩ := hs
      simp only [Ideal.step, ha]
      exact ⟨h, by trivial⟩
  | queue k =>
    simp only [] at hs
    split at hs
    · cases hs
    · rename_i level msg hk
      injection hs with hs; injection hs with h1 h2; subst h1; subst h2
      have hk' := hk; rw [h.pending] at hk'
      obtain ⟨q1, q2, q3, q4, q5⟩ := push_fields h.sender (.write level msg)
      obtain ⟨ws, w1, w2, w3⟩ := h.jobs
      simp only [Ideal.step, hk']
      refine ⟨⟨h.level, by simp [h.pending], fun p hp => h.real p (List.mem_of_mem_eraseIdx hp), Looper.inv_push h.inv _, q2,
        by rw [q3]; exact h.late, by rw [q4]; exact h.live, by rw [q5]; exact h.whole, ws ++ [.write level msg], ?_, ?_, ?_⟩, by trivial⟩
      · rw [q1, w1]; rfl
      · simp [w2, Ev.queues]
      · simp [w3, jobShown]
  | send =>
    simp only [] at hs
    split at hs
    · rename_i ho
      simp only [Option.some.injEq, Prod.mk.injEq] at hs
      obtain ⟨rfl, rfl⟩ := hs
      have hnd : ¬ (s.lp.io = .dead ∨ s.lp.io = .exited) := by
        rintro (h0 | h0) <;> have := h.live <;> rw [h0] at this <;> simp at this
      have hsend : Looper.send s.lp = ({ s.lp with chan := s.lp.chan ++ [.next], owed := s.lp.owed - 1 }, true) := by
        unfold Looper.send
        rw [if_pos h.sender, if_neg hnd]
      have hinv := Looper.inv_send h.inv ho
      rw [hsend] at hinv ⊢
      exact ⟨⟨h.level, h.pending, h.real, hinv, h.sender, h.late, h.live, h.whole, h.jobs⟩, by trivial⟩
    · cases hs
  | io =>
    simp only [Option.map_eq_some_iff] at hs
    obtain ⟨lp, hlp, hs⟩ := hs
    injection hs with h1 h2; subst h1; subst h2
    obtain ⟨q1, q2, q3⟩ := Looper.sender_io hlp
    have hinv := Looper.inv_io h.inv s.java hlp
    obtain ⟨ws, w1, w2, w3⟩ := h.jobs
    have hbound : ∀ js : List (Nat × Job), js.map (·.2) <+: s.lp.pushed → 2 * js.length ≤ cap + 2 := by
      intro js hjs
      have := hjs.length_le
      simp only [List.length_map, w1, List.length_cons, w2] at this
      simp only [Ev.queues, Bool.false_eq_true, if_false, Nat.add_zero] at hn
      omega
    have hpre := hinv.ran_prefix
    rw [q3, h.late, List.append_nil, q2] at hpre
    obtain ⟨w, e1, e2, _⟩ := execAll_ok (cap := cap) (by rw [← w1]; exact hpre) (hbound _ hpre)
    have hcb := hinv.cbRan
    rw [e1] at hcb
    have hnu : ¬ (lp.io = .unwinding ∨ lp.io = .dead) := by
      intro h0; rw [if_pos h0] at hcb; cases hcb
    rw [if_neg hnu] at hcb
    injection hcb with hcb
    have hex : lp.io ≠ .exited := by
      intro h0
      have := (hinv.exitedClosed h0).1
      rw [q1, h.sender] at this
      cases this
    refine ⟨⟨h.level, h.pending, h.real, hinv, q1.trans h.sender, q3.trans h.late, ?_, by rw [← hcb]; exact e2, ws, q2.trans w1, w2, w3⟩, rfl⟩
    cases hio : lp.io with
    | recv => exact .inl rfl
    | swap => exact .inr (.inl rfl)
    | run => exact .inr (.inr rfl)
    | exited => exact absurd hio hex
    | unwinding => exact absurd (.inl hio) hnu
    | dead => exact absurd (.inr hio) hnu

theorem sim_run {cap : Nat} (es : List Ev) {s s' : St} {i : Ideal} {n : Nat} {ps : List Bool} (h : Sim cap s i n) (hr : ∀ e ∈ es, e.Real)
    (hn : 2 * (n + es.countP (·.queues)) ≤ cap) (hs : run cap kind s es = some (s', ps)) :
    Sim cap s' (i.run es) (n + es.countP (·.queues)) ∧ ∀ p ∈ ps, p = false := by
  induction es generalizing s i n ps with
  | nil =>
    simp only [run, Option.some.injEq, Prod.mk.injEq] at hs
    obtain ⟨rfl, rfl⟩ := hs
    exact ⟨h, by simp⟩
  | cons e es ih =>
    unfold run at hs
    split at hs
    · cases hs
    · rename_i s1 p1 h1
      split at hs
      · cases hs
      · rename_i s2 ps2 h2
        injection hs with hs; injection hs with h3 h4; subst h3; subst h4
        rw [List.countP_cons, Nat.add_comm (List.countP _ es), ← Nat.add_assoc] at hn ⊢
        obtain ⟨hs1, hp⟩ := sim_step h (hr e (by simp)) (by omega) h1
        obtain ⟨hs2, hps⟩ := ih hs1 (fun e he => hr e (by simp [he])) hn h2
        refine ⟨hs2, ?_⟩
        intro p hp'
        rcases List.mem_cons.1 hp' with rfl | hp'
        · exact hp
        · exact hps p hp'

theorem sim_start (cap : Nat) : Sim cap St.start {} 0 :=
  ⟨rfl, rfl, by simp [St.start], Looper.inv_push (Looper.inv_new _ _) _, rfl, rfl, .inl rfl, rfl, [], rfl, rfl, rfl⟩

/-- **C76**, what is true: as long as no more than `cap / 2` messages are logged in the life of the process and no logger
throws, nothing aborts, no log call panics, and what loggers receive is a first part of what an ideal logger would have
received - every message let through, once, in order, on the method of its level, with its own text; all of it once the log
thread is at rest.  Missing from C76: more messages, and there it is false (`C76_refuted`). -/
theorem C76_partial (cap : Nat) (es : List Ev) (s : St) (ps : List Bool) (hr : ∀ e ∈ es, e.Real)
    (hfew : 2 * es.countP (·.queues) ≤ cap) (h : run cap kind St.start es = some (s, ps)) :
    s.lp.cb.aborted = false ∧ (∀ p ∈ ps, p = false) ∧ received s.lp.cb.out <+: (Ideal.run {} es).out ∧
      (AtRest s → received s.lp.cb.out = (Ideal.run {} es).out) := by
  obtain ⟨S, hps⟩ := sim_run es (sim_start cap) hr (by rw [Nat.zero_add]; exact hfew) h
  rw [Nat.zero_add] at S
  obtain ⟨ws, w1, w2, w3⟩ := S.jobs
  have hpre := S.inv.ran_prefix
  rw [S.late, List.append_nil] at hpre
  obtain ⟨w, e1, _, e3⟩ := execAll_ok (cap := cap) (by rw [← w1]; exact hpre) (by
    have := hpre.length_le
    simp only [List.length_map, w1, List.length_cons, w2] at this
    omega)
  have hcb := S.inv.cbRan
  rw [e1, if_neg (by rintro (h0 | h0) <;> have := S.live <;> rw [h0] at this <;> simp at this)] at hcb
  injection hcb with hcb
  have hideal : (Ideal.run {} es).out = s.lp.pushed.flatMap jobShown := by rw [w1, ← w3]; rfl
  refine ⟨S.whole, hps, ?_, ?_⟩
  · rw [← hcb, e3, hideal]
    obtain ⟨t, ht⟩ := hpre
    exact ⟨t.flatMap jobShown, by rw [← ht, List.flatMap_append]⟩
  · rintro ⟨_, a1, a2, a3⟩
    have hb := S.inv.bufEmpty (.inl a2)
    have hlen : s.lp.pushed.length ≤ s.lp.ran.length := by
      rcases S.inv.wake with w | w | w | w | w | w
      · simp [a2] at w
      · simp [a2] at w
      · simpa [hb] using w
      · omega
      · simp [a3] at w
      · simp [a2] at w
    rw [← hcb, e3, hideal, hpre.eq_of_length_le (by simpa using hlen)]

/-! ### The limit -/

/-- At most one call for two references. -/
def Paid (cap : Nat) (w : Writer) : Prop := 2 * (received w.out).length ≤ w.refs ∧ w.refs ≤ cap

theorem paid_exec {cap : Nat} {throws : Nat → Method → Jni.JStr → Bool} {java : Nat} (j : Job) {w : Writer} (h : Paid cap w) :
    Paid cap (exec cap throws java j w).state := by
  cases j with
  | attach => exact h
  | write level msg =>
    simp only [exec]
    split
    · split
      · rename_i m _
        unfold callJava newRef
        obtain ⟨h1, h2⟩ := h
        split
        · exact ⟨h1, h2⟩
        · rename_i w1 hw1
          split at hw1
          · injection hw1 with hw1
            subst hw1
            split
            · exact ⟨by simp only [Run.state_panic]; omega, by simp only [Run.state_panic]; omega⟩
            · split
              · exact ⟨by simp only [Run.state_panic]; omega, by simp only [Run.state_panic]; omega⟩
              · rename_i w2 hw2
                simp only [] at hw2
                split at hw2
                · injection hw2 with hw2
                  subst hw2
                  have hl : ∀ js, (received (w.out ++ [.call java m js])).length = (received w.out).length + 1 := by
                    intro js; rw [received_append]; simp [received]
                  split <;> (refine ⟨?_, ?_⟩ <;> simp only [Run.state_panic, Run.state_done, hl] <;> omega)
                · cases hw2
          · cases hw1
      · exact h
    · refine ⟨?_, h.2⟩
      simp only [Run.state_done, received_append]
      simpa [received] using h.1

theorem paid_step {cap : Nat} {throws : Nat → Method → Jni.JStr → Bool} {s s' : St} {e : Ev} {p : Bool} (h : Paid cap s.lp.cb)
    (hs : step cap throws s e = some (s', p)) : Paid cap s'.lp.cb := by
  unfold step at hs
  split at hs
  · cases hs
  cases e with
  | setLevel l => injection hs with hs; injection hs with hs _; subst hs; exact h
  | setLogger l => injection hs with hs; injection hs with hs _; subst hs; exact h
  | log level msg =>
    simp only [] at hs
    split at hs <;> (injection hs with hs; injection hs with hs _; subst hs; exact h)
  | queue k =>
    simp only [] at hs
    split at hs
    · cases hs
    · injection hs with hs; injection hs with hs _; subst hs
      simp only [Looper.push]
      split <;> exact h
  | send =>
    simp only [] at hs
    split at hs
    · injection hs with hs; injection hs with hs _; subst hs
      simp only [Looper.send]
      repeat' split
      all_goals exact h
    · cases hs
  | io =>
    simp only [Option.map_eq_some_iff] at hs
    obtain ⟨lp, hlp, hs⟩ := hs
    injection hs with h1 h2; subst h1
    unfold Looper.ioStep at hlp
    split at hlp
    · split at hlp
      · injection hlp with hlp; subst hlp; exact h
      · injection hlp with hlp; subst hlp; exact h
      · split at hlp
        · cases hlp
        · injection hlp with hlp; subst hlp; exact h
    · injection hlp with hlp; subst hlp; exact h
    · split at hlp
      · injection hlp with hlp; subst hlp; exact h
      · rename_i j rest _
        have hp := paid_exec (cap := cap) (throws := throws) (java := s.java) j h
        split at hlp
        · rename_i cb hcb
          injection hlp with hlp; subst hlp
          rw [hcb] at hp
          exact hp
        · rename_i cb hcb
          injection hlp with hlp; subst hlp
          rw [hcb] at hp
          exact hp
    · injection hlp with hlp; subst hlp; exact h
    · cases hlp
    · cases hlp

/-- **C76 is false**, whatever happens: in no history of the process do Kotlin loggers receive more than `cap / 2`
messages. -/
theorem C76_limit (cap : Nat) (throws : Nat → Method → Jni.JStr → Bool) : ∀ (es : List Ev) (s : St) (ps : List Bool),
    run cap throws St.start es = some (s, ps) → 2 * (received s.lp.cb.out).length ≤ cap := by
  have hrun : ∀ (es : List Ev) (s s' : St) (ps : List Bool), Paid cap s.lp.cb → run cap throws s es = some (s', ps) → Paid cap s'.lp.cb := by
    intro es
    induction es with
    | nil => intro s s' ps h hr; injection hr with hr; injection hr with hr _; subst hr; exact h
    | cons e es ih =>
      intro s s' ps h hr
      unfold run at hr
      split at hr
      · cases hr
      · rename_i s1 p1 h1
        split at hr
        · cases hr
        · rename_i s2 ps2 h2
          injection hr with hr; injection hr with hr _; subst hr
          exact ih _ _ _ (paid_step h h1) h2
  intro es s ps hr
  have := hrun es _ s ps ⟨by simp [received, St.start, Looper.push, Looper.new], by simp [St.start, Looper.push, Looper.new]⟩ hr
  have h1 := this.1
  have h2 := this.2
  omega

/-- A successful put of a Kotlin program, and the log thread delivering its message. -/
def putAndDeliver : List Ev :=
  [.log (putLog "i32" "n").1 (putLog "i32" "n").2, .queue 0, .send, .io, .io, .io, .io]

/-- The same put, with the log thread stopping where it delivers. -/
def putAndFail : List Ev :=
  [.log (putLog "i32" "n").1 (putLog "i32" "n").2, .queue 0, .send, .io, .io, .io]

theorem run_append (cap : Nat) (throws : Nat → Method → Jni.JStr → Bool) (xs ys : List Ev) {s s1 s2 : St} {p1 p2 : List Bool}
    (h1 : run cap throws s xs = some (s1, p1)) (h2 : run cap throws s1 ys = some (s2, p2)) :
    run cap throws s (xs ++ ys) = some (s2, p1 ++ p2) := by
  induction xs generalizing s p1 with
  | nil =>
    simp only [run, Option.some.injEq, Prod.mk.injEq] at h1
    obtain ⟨rfl, rfl⟩ := h1
    exact h2
  | cons e xs ih =>
    unfold run at h1
    split at h1
    · cases h1
    · rename_i sa pa ha
      split at h1
      · cases h1
      · rename_i sb pb hb
        simp only [Option.some.injEq, Prod.mk.injEq] at h1
        obtain ⟨rfl, rfl⟩ := h1
        have := ih hb
        simp only [List.cons_append, run, ha, this]

/-- The log thread at rest, with `n` references. -/
structure Waiting (n : Nat) (s : St) : Prop where
  level : s.level = 5
  pending : s.pending = []
  queue : s.lp.queue = []
  buf : s.lp.buf = []
  chan : s.lp.chan = []
  owed : s.lp.owed = 0
  sender : s.lp.sender = true
  io : s.lp.io = .recv
  attached : s.lp.cb.attached = true
  aborted : s.lp.cb.aborted = false
  refs : s.lp.cb.refs = n

theorem waiting_put {cap n : Nat} {s : St} (h : Waiting n s) (hn : n + 2 ≤ cap) :
    ∃ s' ps, run cap kind s putAndDeliver = some (s', ps) ∧ (∀ p ∈ ps, p = false) ∧ Waiting (n + 2) s' := by
  obtain ⟨level, java, pending, ⟨queue, chan, sender, owed, buf, io, ⟨attached, refs, aborted, out⟩, pushed, late, ran⟩⟩ := s
  obtain ⟨h1, h2, h3, h4, h5, h6, h7, h8, h9, h10, h11⟩ := h
  simp only at h1 h2 h3 h4 h5 h6 h7 h8 h9 h10 h11
  subst h1 h2 h3 h4 h5 h6 h7 h8 h9 h10 h11
  have hlt : refs < cap := by omega
  have hlt1 : refs + 1 < cap := by omega
  refine ⟨_, _, by
    simp [putAndDeliver, run, step, Looper.push, Looper.send, Looper.ioStep, putLog, LogLevel.code, exec, redirect, callJava, newRef,
      C75_back, hlt, hlt1, kind]; exact ⟨rfl, rfl⟩, by simp, ?_⟩
  exact ⟨rfl, rfl, rfl, rfl, rfl, rfl, rfl, rfl, rfl, rfl, rfl⟩

theorem waiting_fail {cap n : Nat} {s : St} (h : Waiting n s) (hn : cap < n + 2) :
    ∃ s' ps, run cap kind s putAndFail = some (s', ps) ∧ (∀ p ∈ ps, p = false) ∧ s'.lp.cb.aborted = true := by
  obtain ⟨level, java, pending, ⟨queue, chan, sender, owed, buf, io, ⟨attached, refs, aborted, out⟩, pushed, late, ran⟩⟩ := s
  obtain ⟨h1, h2, h3, h4, h5, h6, h7, h8, h9, h10, h11⟩ := h
  simp only at h1 h2 h3 h4 h5 h6 h7 h8 h9 h10 h11
  subst h1 h2 h3 h4 h5 h6 h7 h8 h9 h10 h11
  by_cases hlt : refs < cap
  · have hlt1 : ¬ refs + 1 < cap := by omega
    refine ⟨_, _, by
      simp [putAndFail, run, step, Looper.push, Looper.send, Looper.ioStep, putLog, LogLevel.code, exec, redirect, callJava, newRef,
        C75_back, hlt, hlt1]; exact ⟨rfl, rfl⟩, by simp, rfl⟩
  · refine ⟨_, _, by
      simp [putAndFail, run, step, Looper.push, Looper.send, Looper.ioStep, putLog, LogLevel.code, exec, redirect, callJava, newRef,
        hlt]; exact ⟨rfl, rfl⟩, by simp, rfl⟩

theorem waiting_start (cap : Nat) : ∃ s ps, run cap kind St.start [.send, .io, .io, .io, .io] = some (s, ps) ∧
    (∀ p ∈ ps, p = false) ∧ Waiting 0 s := by
  refine ⟨_, _, by simp [St.start, Looper.new, run, step, Looper.push, Looper.send, Looper.ioStep, exec]; exact ⟨rfl, rfl⟩, by simp, ?_⟩
  exact ⟨rfl, rfl, rfl, rfl, rfl, rfl, rfl, rfl, rfl, rfl, rfl⟩

theorem waiting_puts {cap : Nat} : ∀ (k n : Nat) (s : St), Waiting n s → n + 2 * k ≤ cap →
    ∃ s' ps, run cap kind s (List.replicate k putAndDeliver).flatten = some (s', ps) ∧ (∀ p ∈ ps, p = false) ∧ Waiting (n + 2 * k) s'
  | 0, n, s, h, _ => ⟨s, [], rfl, by simp, by simpa using h⟩
  | k + 1, n, s, h, hn => by
    obtain ⟨s1, p1, r1, q1, w1⟩ := waiting_put (cap := cap) (n := n) h (by omega)
    obtain ⟨s2, p2, r2, q2, w2⟩ := waiting_puts (cap := cap) k (n + 2) s1 w1 (by omega)
    refine ⟨s2, p1 ++ p2, ?_, ?_, ?_⟩
    · rw [List.replicate_succ, List.flatten_cons]
      exact run_append cap kind _ _ r1 r2
    · intro p hp
      rcases List.mem_append.1 hp with hp | hp
      · exact q1 p hp
      · exact q2 p hp
    · rw [show n + 2 * (k + 1) = n + 2 + 2 * k by omega]
      exact w2

/-- **C76 is false**: whatever the size of the table of local references, `cap / 2` successful puts of an integer, one after
the other, each with its message delivered, are fine, and the next one aborts the process - with the default log level and a
logger that does nothing wrong. -/
theorem C76_refuted (cap : Nat) : ∃ s ps,
    run cap kind St.start ([.send, .io, .io, .io, .io] ++ (List.replicate (cap / 2) putAndDeliver).flatten ++ putAndFail) = some (s, ps) ∧
      (∀ p ∈ ps, p = false) ∧ s.lp.cb.aborted = true := by
  obtain ⟨s0, p0, r0, q0, w0⟩ := waiting_start cap
  obtain ⟨s1, p1, r1, q1, w1⟩ := waiting_puts (cap := cap) (cap / 2) 0 s0 w0 (by omega)
  obtain ⟨s2, p2, r2, q2, w2⟩ := waiting_fail (cap := cap) w1 (by omega)
  refine ⟨s2, p0 ++ p1 ++ p2, run_append _ _ _ _ (run_append _ _ _ _ r0 r1) r2, ?_, w2⟩
  intro p hp
  simp only [List.mem_append] at hp
  rcases hp with (hp | hp) | hp
  · exact q0 p hp
  · exact q1 p hp
  · exact q2 p hp

/-- The hypotheses of `C76_partial`: two messages of different levels and a filtered one, with an old ART's table. -/
example : ∃ s ps, run 512 kind St.start [.send, .setLevel .info, .log .info "a", .log .debug "b", .log .error "c", .queue 1, .queue 0, .send, .io,
      .io, .io, .send, .io, .io, .io, .io, .io, .io, .io, .io, .io] = some (s, ps) ∧ AtRest s ∧
    received s.lp.cb.out = [(.error, Jni.utf16 "c"), (.info, Jni.utf16 "a")] ∧
    2 * List.countP (fun e => Ev.queues e) [.send, .setLevel .info, .log .info "a", .log .debug "b", .log .error "c", .queue 1, .queue 0] ≤ 512 := by
  have h : (match run 512 kind St.start [.send, .setLevel .info, .log .info "a", .log .debug "b", .log .error "c", .queue 1, .queue 0, .send, .io,
      .io, .io, .send, .io, .io, .io, .io, .io, .io, .io, .io, .io] with
    | some (s, _) => decide (s.pending = [] ∧ s.lp.owed = 0 ∧ s.lp.io = .recv ∧ s.lp.chan = [] ∧
        received s.lp.cb.out = [(.error, Jni.utf16 "c"), (.info, Jni.utf16 "a")])
    | none => false) = true := by decide +kernel
  split at h
  · rename_i s ps hr
    simp only [decide_eq_true_eq] at h
    exact ⟨s, ps, hr, ⟨h.1, h.2.1, h.2.2.1, h.2.2.2.1⟩, h.2.2.2.2, by decide⟩
  · cases h

/-! ### C77 -/

/-- **C77 is false**: a message is logged, then another Kotlin logger is set, then the log thread delivers the message - to
the new logger, which was not in charge when it was logged. -/
theorem C77_refuted : ∃ s ps, run 512 kind St.start
      [.send, .io, .io, .io, .io, .setLogger 1, .log .info "a", .queue 0, .send, .setLogger 2, .io, .io, .io, .io] = some (s, ps) ∧
    (∀ p ∈ ps, p = false) ∧ s.lp.cb.out = [.call 2 .info (Jni.utf16 "a")] := by
  have h : (match run 512 kind St.start
      [.send, .io, .io, .io, .io, .setLogger 1, .log .info "a", .queue 0, .send, .setLogger 2, .io, .io, .io, .io] with
    | some (s, ps) => decide ((∀ p ∈ ps, p = false) ∧ s.lp.cb.out = [.call 2 .info (Jni.utf16 "a")])
    | none => false) = true := by decide +kernel
  split at h
  · rename_i s ps hr
    simp only [decide_eq_true_eq] at h
    exact ⟨s, ps, hr, h.1, h.2⟩
  · cases h

/-- The event sets another logger. -/
def Ev.sets : Ev → Bool
  | .setLogger _ => true
  | _ => false

theorem exec_out {cap : Nat} {throws : Nat → Method → Jni.JStr → Bool} {java : Nat} (j : Job) (w : Writer) :
    ∃ more, (exec cap throws java j w).state.out = w.out ++ more ∧ ∀ l m js, .call l m js ∈ more → l = java := by
  cases j with
  | attach => exact ⟨[], by simp [exec], by simp⟩
  | write level msg =>
    simp only [exec]
    split
    · split
      · rename_i m _
        unfold callJava newRef
        split
        · exact ⟨[], by simp, by simp⟩
        · rename_i w1 hw1
          split at hw1
          · injection hw1 with hw1
            subst hw1
            split
            · exact ⟨[], by simp, by simp⟩
            · rename_i js _
              split
              · exact ⟨[], by simp, by simp⟩
              · rename_i w2 hw2
                simp only [] at hw2
                split at hw2
                · injection hw2 with hw2
                  subst hw2
                  refine ⟨[.call java m js], ?_, by
                    intro l m' js' h
                    simp only [List.mem_singleton, Delivery.call.injEq] at h
                    exact h.1⟩
                  split <;> rfl
                · cases hw2
          · cases hw1
      · exact ⟨[], by simp, by simp⟩
    · exact ⟨[.print level msg], by simp, by simp⟩

theorem out_step {cap : Nat} {throws : Nat → Method → Jni.JStr → Bool} {s s' : St} {e : Ev} {p : Bool} (he : e.sets = false)
    (hs : step cap throws s e = some (s', p)) :
    s'.java = s.java ∧ ∃ more, s'.lp.cb.out = s.lp.cb.out ++ more ∧ ∀ l m js, .call l m js ∈ more → l = s.java := by
  unfold step at hs
  split at hs
  · cases hs
  cases e with
  | setLevel l => injection hs with hs; injection hs with hs _; subst hs; exact ⟨rfl, [], by simp, by simp⟩
  | setLogger l => cases he
  | log level msg =>
    simp only [] at hs
    split at hs <;> (injection hs with hs; injection hs with hs _; subst hs; exact ⟨rfl, [], by simp, by simp⟩)
  | queue k =>
    simp only [] at hs
    split at hs
    · cases hs
    · injection hs with hs; injection hs with hs _; subst hs
      refine ⟨rfl, [], ?_, by simp⟩
      simp only [Looper.push]
      split <;> simp
  | send =>
    simp only [] at hs
    split at hs
    · injection hs with hs; injection hs with hs _; subst hs
      refine ⟨rfl, [], ?_, by simp⟩
      simp only [Looper.send]
      repeat' split
      all_goals simp
    · cases hs
  | io =>
    simp only [Option.map_eq_some_iff] at hs
    obtain ⟨lp, hlp, hs⟩ := hs
    injection hs with h1 h2; subst h1
    refine ⟨rfl, ?_⟩
    unfold Looper.ioStep at hlp
    split at hlp
    · split at hlp
      · injection hlp with hlp; subst hlp; exact ⟨[], by simp, by simp⟩
      · injection hlp with hlp; subst hlp; exact ⟨[], by simp, by simp⟩
      · split at hlp
        · cases hlp
        · injection hlp with hlp; subst hlp; exact ⟨[], by simp, by simp⟩
    · injection hlp with hlp; subst hlp; exact ⟨[], by simp, by simp⟩
    · split at hlp
      · injection hlp with hlp; subst hlp; exact ⟨[], by simp, by simp⟩
      · rename_i j rest _
        have hp := exec_out (cap := cap) (throws := throws) (java := s.java) j s.lp.cb
        split at hlp
        · rename_i cb hcb
          injection hlp with hlp; subst hlp
          rw [hcb] at hp
          exact hp
        · rename_i cb hcb
          injection hlp with hlp; subst hlp
          rw [hcb] at hp
          exact hp
    · injection hlp with hlp; subst hlp; exact ⟨[], by simp, by simp⟩
    · cases hlp
    · cases hlp

/-- **C77**, what is true: from the moment `setLogger(l)` has been called until it is called again, every message delivered -
and so every message logged and delivered in that time - goes to `l`: an old logger is never called again.  Missing from C77:
messages logged before the call and delivered after it (`C77_refuted`). -/
theorem C77_partial (cap : Nat) (throws : Nat → Method → Jni.JStr → Bool) (l : Nat) : ∀ (es : List Ev) (s s1 s2 : St) (p : Bool) (ps : List Bool),
    step cap throws s (.setLogger l) = some (s1, p) → (∀ e ∈ es, e.sets = false) → run cap throws s1 es = some (s2, ps) →
    ∃ more, s2.lp.cb.out = s.lp.cb.out ++ more ∧ ∀ l' m js, .call l' m js ∈ more → l' = l := by
  intro es s s1 s2 p ps hset hes hrun
  have h1 : s1.java = l ∧ s1.lp.cb.out = s.lp.cb.out := by
    unfold step at hset
    split at hset
    · cases hset
    · injection hset with hset; injection hset with hset _; subst hset; exact ⟨rfl, rfl⟩
  rw [← h1.2]
  have hj := h1.1
  clear hset h1
  induction es generalizing s1 ps with
  | nil =>
    simp only [run, Option.some.injEq, Prod.mk.injEq] at hrun
    obtain ⟨rfl, rfl⟩ := hrun
    exact ⟨[], by simp, by simp⟩
  | cons e es ih =>
    unfold run at hrun
    split at hrun
    · cases hrun
    · rename_i sa pa ha
      split at hrun
      · cases hrun
      · rename_i sb pb hb
        simp only [Option.some.injEq, Prod.mk.injEq] at hrun
        obtain ⟨rfl, rfl⟩ := hrun
        obtain ⟨j1, more1, m1, m2⟩ := out_step (hes e (by simp)) ha
        obtain ⟨more2, m3, m4⟩ := ih sa pb (fun e he => hes e (by simp [he])) hb (j1.trans hj)
        refine ⟨more1 ++ more2, by rw [m3, m1, List.append_assoc], ?_⟩
        intro l' m js hmem
        rcases List.mem_append.1 hmem with hmem | hmem
        · rw [m2 _ _ _ hmem, hj]
        · exact m4 _ _ _ hmem

/-- The hypotheses of `C77_partial`: logger 1 in charge, a message for it under way, then logger 2 and another message. -/
example : ∃ s s1 s2 p ps ps', run 512 kind St.start [.send, .io, .io, .io, .io, .setLogger 1, .log .info "a", .queue 0, .send, .io, .io, .io, .io] = some (s, ps) ∧
    step 512 kind s (.setLogger 2) = some (s1, p) ∧ run 512 kind s1 [.log .warn "b", .queue 0, .send, .io, .io, .io, .io] = some (s2, ps') ∧
    s2.lp.cb.out = [.call 1 .info (Jni.utf16 "a"), .call 2 .warn (Jni.utf16 "b")] := by
  have h : (match run 512 kind St.start [.send, .io, .io, .io, .io, .setLogger 1, .log .info "a", .queue 0, .send, .io, .io, .io, .io] with
    | some (s, _) => match step 512 kind s (.setLogger 2) with
      | some (s1, _) => match run 512 kind s1 [.log .warn "b", .queue 0, .send, .io, .io, .io, .io] with
        | some (s2, _) => decide (s2.lp.cb.out = [.call 1 .info (Jni.utf16 "a"), .call 2 .warn (Jni.utf16 "b")])
        | none => false
      | none => false
    | none => false) = true := by decide +kernel
  split at h
  · rename_i s ps hr
    split at h
    · rename_i s1 p hs
      split at h
      · rename_i s2 ps' hr2
        exact ⟨s, s1, s2, p, ps, ps', hr, hs, hr2, by simpa using h⟩
      · cases h
    · cases h
  · cases h

end Mmkv.ALog
