import Verif.Props.AndroidLog
/-!
# C100: a Kotlin logger that throws
-/

namespace Mmkv.ALog
open Log (Method redirect allows)

/-- Some call of a Kotlin logger in this record threw. -/
def Threw (throws : Nat → Method → Jni.JStr → Bool) (out : List Delivery) : Prop :=
  ∃ l m js, .call l m js ∈ out ∧ throws l m js = true

/-- The log thread has panicked. -/
def Gone (s : St) : Prop := s.lp.io = .unwinding ∨ s.lp.io = .dead

theorem push_keeps (s : Looper.St Nat Job Writer) (j : Job) :
    (Looper.push s j).io = s.io ∧ (Looper.push s j).sender = s.sender ∧ (Looper.push s j).cb = s.cb := by
  unfold Looper.push; split <;> exact ⟨rfl, rfl, rfl⟩

theorem send_keeps (s : Looper.St Nat Job Writer) :
    (Looper.send s).1.io = s.io ∧ (Looper.send s).1.sender = s.sender ∧ (Looper.send s).1.cb = s.cb := by
  unfold Looper.send
  split
  · split <;> exact ⟨rfl, rfl, rfl⟩
  · exact ⟨rfl, rfl, rfl⟩

/-- One event after the log thread has panicked. -/
theorem gone_step {cap : Nat} {throws : Nat → Method → Jni.JStr → Bool} {s s' : St} {e : Ev} {p : Bool} (hg : Gone s)
    (h : step cap throws s e = some (s', p)) :
    Gone s' ∧ (s.lp.io = .dead → s'.lp.io = .dead) ∧ s'.lp.cb = s.lp.cb ∧ (s.lp.io = .dead → e = .send → p = true) ∧
      (e = .io → s'.lp.io = .dead) := by
  unfold step at h
  split at h
  · cases h
  · cases e with
    | setLevel l => injection h with h; injection h with a b; subst a; exact ⟨hg, id, rfl, by simp, by simp⟩
    | setLogger l => injection h with h; injection h with a b; subst a; exact ⟨hg, id, rfl, by simp, by simp⟩
    | log level msg =>
      simp only at h
      split at h <;> (injection h with h; injection h with a b; subst a; exact ⟨hg, id, rfl, by simp, by simp⟩)
    | queue k =>
      simp only at h
      split at h
      · cases h
      · injection h with h; injection h with a b; subst a
        obtain ⟨k1, k2, k3⟩ := push_keeps s.lp (.write _ _)
        exact ⟨by simpa only [Gone, k1] using hg, fun hd => by simpa only [k1] using hd, k3, by simp, by simp⟩
    | send =>
      simp only at h
      split at h
      · injection h with h; injection h with a b; subst a; subst b
        obtain ⟨k1, k2, k3⟩ := send_keeps s.lp
        refine ⟨by simpa only [Gone, k1] using hg, fun hd => by simpa only [k1] using hd, k3, fun hd _ => ?_, by simp⟩
        unfold Looper.send
        split
        · rw [if_pos (.inl hd)]; rfl
        · rfl
      · cases h
    | io =>
      simp only [Option.map_eq_some_iff] at h
      obtain ⟨lp, hlp, hb⟩ := h
      injection hb with a b; subst a
      unfold Looper.ioStep at hlp
      rcases hg with hg | hg <;> simp only [hg] at hlp
      · injection hlp with hlp; subst hlp
        exact ⟨.inr rfl, fun _ => rfl, rfl, by simp, fun _ => rfl⟩
      · cases hlp

/-- A history after the log thread has panicked. -/
theorem gone_run {cap : Nat} {throws : Nat → Method → Jni.JStr → Bool} (es : List Ev) {s s' : St} {ps : List Bool} (hg : Gone s)
    (h : run cap throws s es = some (s', ps)) :
    Gone s' ∧ s'.lp.cb = s.lp.cb ∧ (.io ∈ es → s'.lp.io = .dead) ∧ (s.lp.io = .dead → ∀ p ∈ es.zip ps, p.1 = .send → p.2 = true) ∧
      (s.lp.io = .dead → s'.lp.io = .dead) := by
  induction es generalizing s ps with
  | nil =>
    simp only [run, Option.some.injEq, Prod.mk.injEq] at h; obtain ⟨rfl, rfl⟩ := h
    exact ⟨hg, rfl, by simp, by simp, id⟩
  | cons e es ih =>
    unfold run at h
    split at h
    · cases h
    · rename_i s1 p1 h1
      split at h
      · cases h
      · rename_i s2 ps2 h2
        injection h with h; injection h with h3 h4; subst h3; subst h4
        obtain ⟨a1, a2, a3, a4, a5⟩ := gone_step hg h1
        obtain ⟨b1, b2, b3, b4, b5⟩ := ih a1 h2
        refine ⟨b1, b2.trans a3, fun hm => ?_, fun hd => ?_, fun hd => b5 (a2 hd)⟩
        · rcases List.mem_cons.mp hm with hm | hm
          · exact b5 (a5 hm.symm)
          · exact b3 hm
        · intro p hp
          simp only [List.zip_cons_cons, List.mem_cons] at hp
          rcases hp with rfl | hp
          · exact a4 hd
          · exact b4 (a2 hd) p hp

/-- A job: either it ends well and no call in it threw, or the thread panics. -/
theorem exec_threw {cap : Nat} {throws : Nat → Method → Jni.JStr → Bool} {java : Nat} {j : Job} {w w' : Writer}
    (h : exec cap throws java j w = .done w') : Threw throws w'.out → Threw throws w.out := by
  unfold exec at h
  split at h
  · split at h
    · split at h
      · unfold callJava at h
        split at h
        · cases h
        · rename_i w1 hw1
          have e1 : w1.out = w.out := by
            unfold newRef at hw1; split at hw1
            · injection hw1 with hw1; subst hw1; rfl
            · cases hw1
          split at h
          · cases h
          · split at h
            · cases h
            · rename_i w2 hw2
              have e2 : w2.out = w1.out := by
                unfold newRef at hw2; split at hw2
                · injection hw2 with hw2; subst hw2; rfl
                · cases hw2
              split at h
              · cases h
              · rename_i hno
                injection h with h; subst h
                rintro ⟨l, m, js, hm, ht⟩
                simp only [List.mem_append, List.mem_singleton, Delivery.call.injEq] at hm
                rcases hm with hm | ⟨rfl, rfl, rfl⟩
                · exact ⟨l, m, js, by rwa [e2, e1] at hm, ht⟩
                · exact absurd ht hno
      · injection h with h; subst h; exact id
    · injection h with h; subst h
      rintro ⟨l, m, js, hm, ht⟩
      simp only [List.mem_append, List.mem_singleton, reduceCtorEq, or_false] at hm
      exact ⟨l, m, js, hm, ht⟩
  · injection h with h; subst h; exact id

theorem threw_step {cap : Nat} {throws : Nat → Method → Jni.JStr → Bool} {s s' : St} {e : Ev} {p : Bool}
    (hi : Threw throws s.lp.cb.out → Gone s) (h : step cap throws s e = some (s', p)) : Threw throws s'.lp.cb.out → Gone s' := by
  by_cases hg : Gone s
  · exact fun _ => (gone_step hg h).1
  intro ht
  have hno : ¬ Threw throws s.lp.cb.out := fun hx => hg (hi hx)
  unfold step at h
  split at h
  · cases h
  · cases e with
    | setLevel l => injection h with h; injection h with a b; subst a; exact absurd ht hno
    | setLogger l => injection h with h; injection h with a b; subst a; exact absurd ht hno
    | log level msg =>
      simp only at h
      split at h <;> (injection h with h; injection h with a b; subst a; exact absurd ht hno)
    | queue k =>
      simp only at h
      split at h
      · cases h
      · injection h with h; injection h with a b; subst a
        simp only [(push_keeps s.lp _).2.2] at ht
        exact absurd ht hno
    | send =>
      simp only at h
      split at h
      · injection h with h; injection h with a b; subst a
        simp only [(send_keeps s.lp).2.2] at ht
        exact absurd ht hno
      · cases h
    | io =>
      simp only [Option.map_eq_some_iff] at h
      obtain ⟨lp, hlp, hb⟩ := h
      injection hb with a b; subst a
      unfold Looper.ioStep at hlp
      split at hlp
      · split at hlp
        · injection hlp with hlp; subst hlp; exact absurd ht hno
        · injection hlp with hlp; subst hlp; exact absurd ht hno
        · split at hlp
          · cases hlp
          · injection hlp with hlp; subst hlp; exact absurd ht hno
      · injection hlp with hlp; subst hlp; exact absurd ht hno
      · split at hlp
        · injection hlp with hlp; subst hlp; exact absurd ht hno
        · split at hlp
          · rename_i hx
            injection hlp with hlp; subst hlp
            exact absurd (exec_threw hx ht) hno
          · injection hlp with hlp; subst hlp; exact .inl rfl
      · injection hlp with hlp; subst hlp; exact absurd ht hno
      · cases hlp
      · cases hlp

theorem threw_run {cap : Nat} {throws : Nat → Method → Jni.JStr → Bool} (es : List Ev) {s s' : St} {ps : List Bool}
    (hi : Threw throws s.lp.cb.out → Gone s) (h : run cap throws s es = some (s', ps)) : Threw throws s'.lp.cb.out → Gone s' := by
  induction es generalizing s ps with
  | nil => simp only [run, Option.some.injEq, Prod.mk.injEq] at h; obtain ⟨rfl, rfl⟩ := h; exact hi
  | cons e es ih =>
    unfold run at h
    split at h
    · cases h
    · rename_i s1 p1 h1
      split at h
      · cases h
      · rename_i s2 ps2 h2
        injection h with h; injection h with h3 h4; subst h3
        exact ih (threw_step hi h1) h2

/-- **C100 is false of this program.**  In every history in which a call of a Kotlin logger has thrown: whatever happens later, nothing is
ever delivered again - not to that logger, nor to one installed later; and from the next step of the log thread on (`es1` contains it),
every call of the library that logs anything panics in the thread of its caller (in a function called from Kotlin, which is `extern "C"`,
that ends the process). -/
theorem C100_refuted (cap : Nat) (throws : Nat → Method → Jni.JStr → Bool) (es es1 es2 : List Ev) (s s1 s2 : St) (ps ps1 ps2 : List Bool)
    (h : run cap throws St.start es = some (s, ps)) (ht : Threw throws s.lp.cb.out)
    (h1 : run cap throws s es1 = some (s1, ps1)) (hio : .io ∈ es1) (h2 : run cap throws s1 es2 = some (s2, ps2)) :
    s2.lp.cb.out = s.lp.cb.out ∧ ∀ p ∈ es2.zip ps2, p.1 = .send → p.2 = true := by
  have hg := threw_run es (by rintro ⟨l, m, js, hm, _⟩; simp [St.start, Looper.push, Looper.new] at hm) h ht
  obtain ⟨a1, a2, a3, _, _⟩ := gone_run es1 hg h1
  obtain ⟨_, b2, _, b4, _⟩ := gone_run es2 a1 h2
  exact ⟨by rw [b2, a2], b4 (a3 hio)⟩

/-- A Kotlin logger (number 1) that throws on every message of level error, and one (number 2) that never does. -/
def picky : Nat → Method → Jni.JStr → Bool := fun l m _ => l == 1 && m == .error

/-- It does happen: an error is logged, the logger throws; a good logger is installed; the next `put` panics. -/
theorem C100_refuted_example : ∃ s ps, run 512 picky St.start
      [.send, .io, .io, .io, .io, .setLogger 1, .log .error "a", .queue 0, .send, .io, .io, .io, .io,
       .setLogger 2, .log .info "b", .queue 0, .send] = some (s, ps) ∧
    s.lp.cb.out = [.call 1 .error (Jni.utf16 "a")] ∧ Threw picky s.lp.cb.out ∧ ps.getLast? = some true := by
  refine ⟨_, _, rfl, by decide +kernel, ⟨1, .error, Jni.utf16 "a", by decide +kernel, rfl⟩, by decide +kernel⟩

/-- As long as nothing has thrown, loggers that might throw are like loggers that do not. -/
theorem kind_step {cap : Nat} {throws : Nat → Method → Jni.JStr → Bool} {s s' : St} {e : Ev} {p : Bool}
    (h : step cap throws s e = some (s', p)) (ht : ¬ Threw throws s'.lp.cb.out) : step cap kind s e = some (s', p) := by
  unfold step at h ⊢
  split at h
  · cases h
  · rename_i hab
    rw [if_neg hab]
    cases e with
    | io =>
      simp only [Option.map_eq_some_iff] at h ⊢
      obtain ⟨lp, hlp, hb⟩ := h
      refine ⟨lp, ?_, hb⟩
      injection hb with a b; subst a
      have hex : ∀ j w, (∀ w', exec cap throws s.java j w = .done w' → ¬ Threw throws w'.out) →
          (∀ w', exec cap throws s.java j w = .panic w' → ¬ Threw throws w'.out) → exec cap kind s.java j w = exec cap throws s.java j w := by
        intro j w _ hp
        unfold exec at hp ⊢
        cases j with
        | attach => rfl
        | write level msg =>
          simp only at hp ⊢
          split
          · rename_i hat
            rw [if_pos hat] at hp
            split
            · rename_i m hm
              simp only [hm] at hp
              unfold callJava at hp ⊢
              split
              · rfl
              · rename_i w1 hw1
                simp only [hw1] at hp
                split
                · rfl
                · rename_i js hjs
                  simp only [hjs] at hp
                  split
                  · rfl
                  · rename_i w2 hw2
                    simp only [hw2] at hp
                    cases hth : throws s.java m js with
                    | false => simp [kind]
                    | true =>
                      rw [if_pos hth] at hp
                      exact absurd ⟨s.java, m, js, by simp, hth⟩ (hp _ rfl)
            · rfl
          · rfl
      cases hio : s.lp.io with
      | run =>
        unfold Looper.ioStep at hlp ⊢
        simp only [hio] at hlp ⊢
        cases hb : s.lp.buf with
        | nil => simp only [hb] at hlp ⊢; exact hlp
        | cons j rest =>
          simp only [hb] at hlp ⊢
          rw [hex j s.lp.cb (fun w' hw' => by
              rw [hw'] at hlp; injection hlp with hlp; subst hlp; exact ht) (fun w' hw' => by
              rw [hw'] at hlp; injection hlp with hlp; subst hlp; exact ht)]
          exact hlp
      | recv => unfold Looper.ioStep at hlp ⊢; simp only [hio] at hlp ⊢; exact hlp
      | swap => unfold Looper.ioStep at hlp ⊢; simp only [hio] at hlp ⊢; exact hlp
      | exited => unfold Looper.ioStep at hlp ⊢; simp only [hio] at hlp ⊢; exact hlp
      | unwinding => unfold Looper.ioStep at hlp ⊢; simp only [hio] at hlp ⊢; exact hlp
      | dead => unfold Looper.ioStep at hlp ⊢; simp only [hio] at hlp ⊢; exact hlp
    | setLevel l => exact h
    | setLogger l => exact h
    | log level msg => exact h
    | queue k => exact h
    | send => exact h

/-- What was delivered stays delivered. -/
theorem out_grows {cap : Nat} {throws : Nat → Method → Jni.JStr → Bool} (es : List Ev) {s s' : St} {ps : List Bool}
    (h : run cap throws s es = some (s', ps)) : Threw throws s.lp.cb.out → Threw throws s'.lp.cb.out := by
  induction es generalizing s ps with
  | nil => simp only [run, Option.some.injEq, Prod.mk.injEq] at h; obtain ⟨rfl, rfl⟩ := h; exact id
  | cons e es ih =>
    unfold run at h
    split at h
    · cases h
    · rename_i s1 p1 h1
      split at h
      · cases h
      · rename_i s2 ps2 h2
        injection h with h; injection h with h3 h4; subst h3
        rintro ⟨l, m, js, hm, ht⟩
        refine ih h2 ⟨l, m, js, ?_, ht⟩
        cases hse : e.sets with
        | false =>
          obtain ⟨_, more, hmore, _⟩ := out_step hse h1
          rw [hmore]; simp [hm]
        | true =>
          cases e <;> simp only [Ev.sets, reduceCtorEq] at hse
          unfold step at h1
          split at h1
          · cases h1
          · injection h1 with h1; injection h1 with a b; subst a; exact hm

theorem kind_run {cap : Nat} {throws : Nat → Method → Jni.JStr → Bool} (es : List Ev) {s s' : St} {ps : List Bool}
    (h : run cap throws s es = some (s', ps)) (ht : ¬ Threw throws s'.lp.cb.out) : run cap kind s es = some (s', ps) := by
  induction es generalizing s ps with
  | nil => exact h
  | cons e es ih =>
    unfold run at h ⊢
    split at h
    · cases h
    · rename_i s1 p1 h1
      split at h
      · cases h
      · rename_i s2 ps2 h2
        injection h with h; injection h with h3 h4; subst h3; subst h4
        rw [kind_step h1 (fun hx => ht (out_grows es h2 hx))]
        simp only [ih h2]

/-- **C100**, what holds: loggers may be such that they would throw; as long as none has, every message let through is received in order
and no log call panics (with room for the messages in the table of local references, see C76). -/
theorem C100_partial (cap : Nat) (throws : Nat → Method → Jni.JStr → Bool) (es : List Ev) (s : St) (ps : List Bool) (hr : ∀ e ∈ es, e.Real)
    (hfew : 2 * es.countP (·.queues) ≤ cap) (h : run cap throws St.start es = some (s, ps)) (ht : ¬ Threw throws s.lp.cb.out) :
    s.lp.cb.aborted = false ∧ (∀ p ∈ ps, p = false) ∧ received s.lp.cb.out <+: (Ideal.run {} es).out ∧
      (AtRest s → received s.lp.cb.out = (Ideal.run {} es).out) :=
  C76_partial cap es s ps hr hfew (kind_run es h ht)

/-- Loggers that might throw, and have not: a message of level info and one of level warn reached logger 1. -/
example : ∃ s ps, run 512 picky St.start
      [.send, .io, .io, .io, .io, .setLogger 1, .log .info "a", .queue 0, .log .warn "b", .queue 0, .send, .send, .io, .io, .io, .io, .io] = some (s, ps) ∧
    s.lp.cb.out = [.call 1 .info (Jni.utf16 "a"), .call 1 .warn (Jni.utf16 "b")] ∧ ¬ Threw picky s.lp.cb.out ∧ ∀ p ∈ ps, p = false := by
  refine ⟨_, _, rfl, by decide +kernel, ?_, by decide +kernel⟩
  rintro ⟨l, m, js, hm, ht⟩
  have : ∀ d ∈ [Delivery.call 1 .info (Jni.utf16 "a"), .call 1 .warn (Jni.utf16 "b")], ∀ l m js, d = .call l m js → picky l m js = false := by
    intro d hd l m js he
    subst he
    simp only [List.mem_cons, Delivery.call.injEq, List.not_mem_nil, or_false] at hd
    rcases hd with ⟨rfl, rfl, rfl⟩ | ⟨rfl, rfl, rfl⟩ <;> rfl
  rw [this _ hm l m js rfl] at ht
  cases ht

end Mmkv.ALog
