import Verif.Model.CLog
/-!
# C78, C79: the log falls silent
-/

namespace Mmkv.CLog
open NLog (St Writer)

/-! ### What a user has in mind -/

/-- Messages that came out: the callback of a logger, or a line printed. -/
def messages (out : List NLog.Out) : Nat := out.countP fun | .call .. => true | .print .. => true | .destroy _ => false

/-- The event is a log call somewhere in the library or the C interface. -/
def isLog : Log.Ev → Bool
  | .log .. => true
  | _ => false

/-- The event is a `set_logger`. -/
def isSet : Log.Ev → Bool
  | .setLogger _ => true
  | _ => false

/-- The event is part of log calls and `set_logger` calls already made, or of the log thread: the program itself makes no
call any more. -/
def Winding : Log.Ev → Prop
  | .queue _ | .send | .io => True
  | _ => False

/-- The calls of the C interface that make messages of their own, with what they found: `get_…` and what the store returned,
`put_…` or `delete` and what the store returned, `free_buffer` on a heap. -/
inductive CCall where
  | get (t : Ty) (r : Out t.Val)
  | unit (r : Out Unit)
  | free (h : Ffi.Heap) (p : Ffi.Ptr)

/-- The messages a call makes. -/
def CCall.log : CCall → List LogLevel
  | .get t r => getLog t r
  | .unit r => unitLog r
  | .free h p => freeLog h p

/-! ### Proofs -/

def jobCost : Log.Job → Nat
  | .write .. => 1
  | .setLogger _ => 5

def phase : Looper.IoPc → Nat
  | .recv => 1
  | .swap => 3
  | .run => 2
  | .unwinding => 1
  | .exited => 0
  | .dead => 0

/-- What is left to do for the log thread and those who owe it a signal. -/
def mu (lp : Looper.St Unit Log.Job Writer) : Nat :=
  (lp.buf.map jobCost).sum + (lp.queue.map jobCost).sum + 4 * lp.owed + 3 * lp.chan.length + phase lp.io

/-- Messages that are out or under way. -/
def load (lp : Looper.St Unit Log.Job Writer) : Nat := lp.buf.length + lp.queue.length + messages lp.cb.out

theorem push_mu (lp : Looper.St Unit Log.Job Writer) (j : Log.Job) :
    mu (Looper.push lp j) ≤ mu lp + jobCost j + 4 ∧ load (Looper.push lp j) = load lp + 1 ∧ (Looper.push lp j).cb = lp.cb := by
  unfold Looper.push
  split <;> simp [mu, load] <;> omega

theorem send_mu (lp : Looper.St Unit Log.Job Writer) (h : 0 < lp.owed) :
    mu (Looper.send lp).1 ≤ mu lp ∧ load (Looper.send lp).1 = load lp ∧ (Looper.send lp).1.cb = lp.cb := by
  unfold Looper.send
  split
  · split <;> simp [mu, load] <;> omega
  · simp

theorem send_strict (lp : Looper.St Unit Log.Job Writer) (h : 0 < lp.owed) (hs : lp.sender = true) :
    mu (Looper.send lp).1 + 1 ≤ mu lp := by
  unfold Looper.send
  rw [if_pos hs]
  split <;> simp [mu] <;> omega

/-! The log's sender lives as long as the process. -/

theorem push_sender (lp : Looper.St Unit Log.Job Writer) (j : Log.Job) : (Looper.push lp j).sender = lp.sender := by
  unfold Looper.push; split <;> rfl

theorem send_sender (lp : Looper.St Unit Log.Job Writer) : (Looper.send lp).1.sender = lp.sender := by
  unfold Looper.send
  split
  · split <;> rfl
  · rfl

theorem sayAll_sender (level : Int) : ∀ (ms : List LogLevel) (lp : Looper.St Unit Log.Job Writer),
    (sayAll level lp ms).sender = lp.sender := by
  intro ms
  induction ms with
  | nil => intro lp; rfl
  | cons m ms ih =>
    intro lp
    simp only [sayAll]
    rw [ih]
    split
    · rfl
    · rw [send_sender, push_sender]

theorem ioStep_sender {lp lp' : Looper.St Unit Log.Job Writer} (h : Looper.ioStep NLog.exec () lp = some lp') :
    lp'.sender = lp.sender := by
  unfold Looper.ioStep at h
  split at h
  · split at h
    · injection h with h; subst h; rfl
    · injection h with h; subst h; rfl
    · split at h
      · cases h
      · injection h with h; subst h; rfl
  · injection h with h; subst h; rfl
  · split at h
    · injection h with h; subst h; rfl
    · split at h <;> (injection h with h; subst h; rfl)
  · injection h with h; subst h; rfl
  · cases h
  · cases h

theorem nlog_sender {s s' : St} {e : Log.Ev} {p : Bool} (h : NLog.step s e = some (s', p)) : s'.lp.sender = s.lp.sender := by
  cases e with
  | setLevel l => simp only [NLog.step, Option.some.injEq, Prod.mk.injEq] at h; rw [← h.1]
  | log level msg =>
    simp only [NLog.step] at h
    split at h <;> (simp only [Option.some.injEq, Prod.mk.injEq] at h; rw [← h.1])
  | queue k =>
    simp only [NLog.step] at h
    split at h
    · cases h
    · simp only [Option.some.injEq, Prod.mk.injEq] at h; rw [← h.1]; exact push_sender _ _
  | setLogger l => simp only [NLog.step, Option.some.injEq, Prod.mk.injEq] at h; rw [← h.1]; exact push_sender _ _
  | send =>
    simp only [NLog.step] at h
    split at h
    · simp only [Option.some.injEq, Prod.mk.injEq] at h; rw [← h.1]; exact send_sender _
    · cases h
  | io =>
    simp only [NLog.step] at h
    split at h
    · cases h
    rename_i lp hlp
    have hs := ioStep_sender hlp
    split at h
    · simp only [Option.some.injEq, Prod.mk.injEq] at h; rw [← h.1]; exact hs
    · simp only [Option.some.injEq, Prod.mk.injEq] at h
      rw [← h.1]
      simp only [NLog.say]
      split
      · exact hs
      · rw [send_sender, push_sender]; exact hs

theorem say_mu (lp : Looper.St Unit Log.Job Writer) (m : LogLevel) (t : String) :
    mu (Looper.send (Looper.push lp (.write m t))).1 ≤ mu lp + 4 ∧
      load (Looper.send (Looper.push lp (.write m t))).1 = load lp + 1 ∧
      (Looper.send (Looper.push lp (.write m t))).1.cb = lp.cb := by
  unfold Looper.send Looper.push
  by_cases hs : lp.sender = true
  · simp only [hs, if_true]
    split <;> simp [mu, load, jobCost] <;> omega
  · simp [hs, mu, load, jobCost] <;> omega

theorem sayAll_mu (level : Int) : ∀ (ms : List LogLevel) (lp : Looper.St Unit Log.Job Writer),
    mu (sayAll level lp ms) ≤ mu lp + 4 * ms.length ∧ load (sayAll level lp ms) ≤ load lp + ms.length ∧
      (sayAll level lp ms).cb = lp.cb := by
  intro ms
  induction ms with
  | nil => intro lp; simp [sayAll]
  | cons m ms ih =>
    intro lp
    simp only [sayAll, List.length_cons]
    split
    · have := ih lp
      refine ⟨by omega, by omega, this.2.2⟩
    · have := ih (Looper.send (Looper.push lp (.write m ""))).1
      have h2 := say_mu lp m ""
      refine ⟨by omega, by omega, this.2.2.trans h2.2.2⟩

theorem sayAll_filtered (level : Int) : ∀ (ms : List LogLevel) (lp : Looper.St Unit Log.Job Writer), (∀ m ∈ ms, level < m.code) →
    sayAll level lp ms = lp := by
  intro ms
  induction ms with
  | nil => intro lp _; rfl
  | cons m ms ih =>
    intro lp h
    simp only [sayAll, if_pos (h m List.mem_cons_self)]
    exact ih lp fun x hx => h x (List.mem_cons_of_mem _ hx)

theorem messages_append (a b : List NLog.Out) : messages (a ++ b) = messages a + messages b := by simp [messages]

/-- A step of the log thread, up to what handing over a message adds. -/
theorem io_mu {s s' : St} {p : Bool} (hd : s.lp.cb.dropped = []) (h : NLog.step s .io = some (s', p)) :
    s'.level = s.level ∧ s'.pending = s.pending ∧ s'.lp.cb.dropped = [] ∧ mu s'.lp + 1 ≤ mu s.lp ∧ load s'.lp ≤ load s.lp := by
  simp only [NLog.step] at h
  split at h
  · cases h
  rename_i lp hlp
  have key : (lp.cb.dropped = [] ∧ mu lp + 1 ≤ mu s.lp ∧ load lp ≤ load s.lp) ∨
      (mu lp + 5 ≤ mu s.lp ∧ load lp + 1 ≤ load s.lp) := by
    unfold Looper.ioStep at hlp
    split at hlp
    · rename_i hio
      split at hlp
      · rename_i hc
        injection hlp with hlp; subst hlp
        left; simp only [mu, load, hc, hio, phase, List.length_cons]; exact ⟨hd, by omega, by omega⟩
      · rename_i hc
        injection hlp with hlp; subst hlp
        left; simp only [mu, load, hc, hio, phase, List.length_cons]; exact ⟨hd, by omega, by omega⟩
      · split at hlp
        · cases hlp
        · injection hlp with hlp; subst hlp
          left; simp only [mu, load, hio, phase]; exact ⟨hd, by omega, by omega⟩
    · rename_i hio
      injection hlp with hlp; subst hlp
      left; simp only [mu, load, hio, phase]; exact ⟨hd, by omega, by omega⟩
    · rename_i hio
      split at hlp
      · rename_i hb
        injection hlp with hlp; subst hlp
        left; simp only [mu, load, hio, phase]; exact ⟨hd, by omega, by omega⟩
      · rename_i j rest hb
        cases j with
        | write level msg =>
          simp only [NLog.exec] at hlp
          left
          split at hlp
          · rename_i cb hx
            injection hlp with hlp; subst hlp
            split at hx
            · split at hx
              · injection hx with hx; subst hx
                simp only [mu, load, hio, hb, phase, List.map_cons, List.sum_cons, jobCost, List.length_cons, messages_append]
                refine ⟨hd, by omega, ?_⟩
                have : messages [NLog.Out.call ‹Nat› level msg] = 1 := rfl
                omega
              · injection hx with hx; subst hx
                simp only [mu, load, hio, hb, phase, List.map_cons, List.sum_cons, jobCost, List.length_cons]
                exact ⟨hd, by omega, by omega⟩
            · injection hx with hx; subst hx
              simp only [mu, load, hio, hb, phase, List.map_cons, List.sum_cons, jobCost, List.length_cons, messages_append]
              refine ⟨hd, by omega, ?_⟩
              have : messages [NLog.Out.print level msg] = 1 := rfl
              omega
          · rename_i cb hx
            split at hx
            · split at hx <;> cases hx
            · cases hx
        | setLogger l =>
          simp only [NLog.exec] at hlp
          right
          split at hlp
          · rename_i cb hx
            injection hlp with hlp; subst hlp
            split at hx
            · injection hx with hx; subst hx
              simp only [mu, load, hio, hb, phase, List.map_cons, List.sum_cons, jobCost, List.length_cons]
              exact ⟨by omega, by omega⟩
            · injection hx with hx; subst hx
              simp only [mu, load, hio, hb, phase, List.map_cons, List.sum_cons, jobCost, List.length_cons, messages_append]
              refine ⟨by omega, ?_⟩
              have : messages [NLog.Out.destroy ‹Nat›] = 0 := rfl
              omega
          · rename_i cb hx
            split at hx <;> cases hx
    · rename_i hio
      injection hlp with hlp; subst hlp
      left; simp only [mu, load, hio, phase]; exact ⟨hd, by omega, by omega⟩
    · cases hlp
    · cases hlp
  have e1 : mu { lp with cb := { lp.cb with dropped := [] } } = mu lp := rfl
  have e2 : load { lp with cb := { lp.cb with dropped := [] } } = load lp := rfl
  split at h
  · simp only [Option.some.injEq, Prod.mk.injEq] at h
    obtain ⟨rfl, rfl⟩ := h
    exact ⟨rfl, rfl, rfl, by simp only [e1]; omega, by simp only [e2]; omega⟩
  · rename_i l ls hdr
    simp only [Option.some.injEq, Prod.mk.injEq] at h
    obtain ⟨rfl, rfl⟩ := h
    have k2 : mu lp + 5 ≤ mu s.lp ∧ load lp + 1 ≤ load s.lp := by
      rcases key with ⟨k, _⟩ | k
      · rw [hdr] at k; cases k
      · exact k
    refine ⟨rfl, rfl, ?_⟩
    simp only [NLog.say]
    split
    · exact ⟨rfl, by simp only [e1]; omega, by simp only [e2]; omega⟩
    · have := say_mu { lp with cb := { lp.cb with dropped := [] } } .verbose (NLog.releaseMsg l)
      rw [e1, e2] at this
      exact ⟨by rw [this.2.2], Nat.le_trans (Nat.add_le_add_right this.1 1) (by omega), Nat.le_trans (Nat.le_of_eq this.2.1) (by omega)⟩

/-- How much an event can add to what is left to do. -/
def total (s : St) : Nat := 6 * s.pending.length + mu s.lp

theorem callTargetLog_length (cb : List LogLevel) : (callTargetLog cb).length = cb.length := by
  simp [callTargetLog, leakLog, releaseLog]

theorem callTargetLog_eq (cb : List LogLevel) : callTargetLog cb = cb := by
  simp [callTargetLog, leakLog, releaseLog]

theorem drop_self {α : Type} (l : List α) : l.drop l.length = [] := by simp

theorem step_facts {cb : List LogLevel} {s s' : St} {e : Log.Ev} {p : Bool} (hd : s.lp.cb.dropped = []) (hse : s.lp.sender = true)
    (h : step cb s e = some (s', p)) : s'.lp.cb.dropped = [] ∧ total s' ≤ total s + (9 + 4 * cb.length) ∧
      s'.pending.length + load s'.lp ≤ s.pending.length + load s.lp + (if isLog e then 1 else 0) + (if isSet e then 1 else 0) + cb.length ∧
      (Winding e → (∀ m ∈ cb, s.level < m.code) → s'.level = s.level ∧ total s' + 1 ≤ total s) := by
  unfold step at h
  split at h
  · cases h
  rename_i s1 p1 hn
  -- everything but the log thread leaves the output alone
  have quiet : s1.lp.cb = s.lp.cb → s' = s1 := by
    intro hcb
    rw [hcb, drop_self] at h
    simp only [Option.some.injEq, Prod.mk.injEq] at h
    exact h.1.symm
  cases e with
  | setLevel l =>
    simp only [NLog.step, Option.some.injEq, Prod.mk.injEq] at hn
    obtain ⟨rfl, rfl⟩ := hn
    rw [quiet rfl]
    exact ⟨hd, by simp [total] <;> omega, by simp [isLog, isSet], fun hw => hw.elim⟩
  | log level msg =>
    simp only [NLog.step] at hn
    split at hn
    · simp only [Option.some.injEq, Prod.mk.injEq] at hn
      obtain ⟨rfl, rfl⟩ := hn
      rw [quiet rfl]
      exact ⟨hd, by simp [total] <;> omega, by simp [isLog, isSet] <;> omega, fun hw => hw.elim⟩
    · simp only [Option.some.injEq, Prod.mk.injEq] at hn
      obtain ⟨rfl, rfl⟩ := hn
      rw [quiet rfl]
      exact ⟨hd, by simp [total] <;> omega, by simp [isLog, isSet] <;> omega, fun hw => hw.elim⟩
  | queue k =>
    simp only [NLog.step] at hn
    split at hn
    · cases hn
    rename_i level msg hk
    simp only [Option.some.injEq, Prod.mk.injEq] at hn
    obtain ⟨rfl, rfl⟩ := hn
    have hp := push_mu s.lp (.write level msg)
    simp only [jobCost] at hp
    rw [quiet hp.2.2]
    have hlen : (s.pending.eraseIdx k).length + 1 = s.pending.length := by
      have := (List.getElem?_eq_some_iff.1 hk).1
      rw [List.length_eraseIdx]
      split <;> omega
    refine ⟨by rw [hp.2.2]; exact hd, by simp only [total]; omega, by simp [isLog, isSet]; omega, fun _ _ => ⟨rfl, by simp only [total]; omega⟩⟩
  | setLogger l =>
    simp only [NLog.step, Option.some.injEq, Prod.mk.injEq] at hn
    obtain ⟨rfl, rfl⟩ := hn
    have hp := push_mu s.lp (.setLogger l)
    simp only [jobCost] at hp
    rw [quiet hp.2.2]
    refine ⟨by rw [hp.2.2]; exact hd, by simp only [total]; omega, by simp [isLog, isSet]; omega, fun hw => hw.elim⟩
  | send =>
    simp only [NLog.step] at hn
    split at hn
    · rename_i ho
      simp only [Option.some.injEq, Prod.mk.injEq] at hn
      obtain ⟨rfl, rfl⟩ := hn
      have hp := send_mu s.lp ho
      rw [quiet hp.2.2]
      refine ⟨by rw [hp.2.2]; exact hd, by simp only [total]; omega, by simp only [isLog, isSet]; omega, fun _ _ => ⟨rfl, ?_⟩⟩
      simp only [total]
      have := send_strict s.lp ho hse
      omega
    · cases hn
  | io =>
    obtain ⟨e1, e2, e3, e4, e5⟩ := io_mu hd hn
    split at h
    · simp only [Option.some.injEq, Prod.mk.injEq] at h
      obtain ⟨rfl, rfl⟩ := h
      have hs := sayAll_mu s1.level (callTargetLog cb) s1.lp
      rw [callTargetLog_length] at hs
      refine ⟨by rw [hs.2.2]; exact e3, by simp only [total, e2]; omega, by simp only [isLog, isSet, e2]; omega, fun _ hq => ?_⟩
      rw [callTargetLog_eq, sayAll_filtered _ _ _ (by rw [e1]; exact hq)]
      exact ⟨e1, by simp only [total, e2]; omega⟩
    · simp only [Option.some.injEq, Prod.mk.injEq] at h
      obtain ⟨rfl, rfl⟩ := h
      exact ⟨e3, by simp only [total, e2]; omega, by simp only [isLog, isSet, e2]; omega, fun _ _ => ⟨e1, by simp only [total, e2]; omega⟩⟩

theorem step_sender {cb : List LogLevel} {s s' : St} {e : Log.Ev} {p : Bool} (h : step cb s e = some (s', p)) :
    s'.lp.sender = s.lp.sender := by
  unfold step at h
  split at h
  · cases h
  rename_i s1 p1 hn
  split at h
  · simp only [Option.some.injEq, Prod.mk.injEq] at h
    rw [← h.1]
    exact (sayAll_sender _ _ _).trans (nlog_sender hn)
  · simp only [Option.some.injEq, Prod.mk.injEq] at h
    rw [← h.1]
    exact nlog_sender hn

theorem run_cons {cb : List LogLevel} {s s' : St} {e : Log.Ev} {es : List Log.Ev} {ps : List Bool}
    (h : run cb s (e :: es) = some (s', ps)) : ∃ s1 p ps1, step cb s e = some (s1, p) ∧ run cb s1 es = some (s', ps1) := by
  simp only [run] at h
  split at h
  · cases h
  rename_i s1 p h1
  split at h
  · cases h
  rename_i s2 ps2 h2
  simp only [Option.some.injEq, Prod.mk.injEq] at h
  obtain ⟨rfl, -⟩ := h
  exact ⟨s1, p, ps2, h1, h2⟩

theorem run_facts {cb : List LogLevel} : ∀ (es : List Log.Ev) {s s' : St} {ps : List Bool}, s.lp.cb.dropped = [] → s.lp.sender = true →
    run cb s es = some (s', ps) → s'.lp.cb.dropped = [] ∧ s'.lp.sender = true ∧
      total s' ≤ total s + (9 + 4 * cb.length) * es.length ∧
      s'.pending.length + load s'.lp ≤ s.pending.length + load s.lp + es.countP isLog + es.countP isSet + cb.length * es.length := by
  intro es
  induction es with
  | nil =>
    intro s s' ps hd hs h
    simp only [run, Option.some.injEq, Prod.mk.injEq] at h
    obtain ⟨rfl, rfl⟩ := h
    exact ⟨hd, hs, by simp, by simp⟩
  | cons e es ih =>
    intro s s' ps hd hs h
    obtain ⟨s1, p, ps1, h1, h2⟩ := run_cons h
    obtain ⟨d1, t1, l1, _⟩ := step_facts hd hs h1
    obtain ⟨d2, s2, t2, l2⟩ := ih d1 ((step_sender h1).trans hs) h2
    refine ⟨d2, s2, ?_, ?_⟩
    · rw [List.length_cons, Nat.mul_succ]; omega
    · rw [List.length_cons, Nat.mul_succ, List.countP_cons, List.countP_cons]; omega

theorem wind_bound {cb : List LogLevel} : ∀ (es : List Log.Ev) {s s' : St} {ps : List Bool}, s.lp.cb.dropped = [] → s.lp.sender = true →
    (∀ m ∈ cb, s.level < m.code) → (∀ e ∈ es, Winding e) → run cb s es = some (s', ps) → es.length + total s' ≤ total s := by
  intro es
  induction es with
  | nil =>
    intro s s' ps _ _ _ _ h
    simp only [run, Option.some.injEq, Prod.mk.injEq] at h
    obtain ⟨rfl, rfl⟩ := h
    simp
  | cons e es ih =>
    intro s s' ps hd hs hq hw h
    obtain ⟨s1, p, ps1, h1, h2⟩ := run_cons h
    obtain ⟨d1, _, _, w1⟩ := step_facts hd hs h1
    obtain ⟨v1, w1⟩ := w1 (hw e List.mem_cons_self) hq
    have := ih d1 ((step_sender h1).trans hs) (by rw [v1]; exact hq) (fun x hx => hw x (List.mem_cons_of_mem _ hx)) h2
    simp only [List.length_cons]
    omega

/-- No signal is lost, and the thread lives. -/
structure Wake (lp : Looper.St Unit Log.Job Writer) : Prop where
  sender : lp.sender = true
  quit : .quit ∉ lp.chan
  io : lp.io = .recv ∧ lp.buf = [] ∨ lp.io = .swap ∧ lp.buf = [] ∨ lp.io = .run
  wake : lp.queue ≠ [] → 0 < lp.owed ∨ lp.chan ≠ [] ∨ lp.io = .swap

theorem wake_push {lp : Looper.St Unit Log.Job Writer} (h : Wake lp) (j : Log.Job) : Wake (Looper.push lp j) := by
  unfold Looper.push
  rw [if_pos h.sender]
  exact ⟨h.sender, h.quit, h.io, fun _ => .inl (by simp)⟩

theorem wake_send {lp : Looper.St Unit Log.Job Writer} (h : Wake lp) : Wake (Looper.send lp).1 := by
  unfold Looper.send
  rw [if_pos h.sender, if_neg (by rcases h.io with hi | hi | hi <;> simp [hi])]
  exact ⟨h.sender, by simpa using h.quit, h.io, fun _ => .inr (.inl (by simp))⟩

theorem wake_sayAll (level : Int) : ∀ (ms : List LogLevel) {lp : Looper.St Unit Log.Job Writer}, Wake lp → Wake (sayAll level lp ms) := by
  intro ms
  induction ms with
  | nil => intro lp h; exact h
  | cons m ms ih =>
    intro lp h
    simp only [sayAll]
    split
    · exact ih h
    · exact ih (wake_send (wake_push h _))

theorem exec_done (j : Log.Job) (w : Writer) : ∃ w', NLog.exec () j w = .done w' := by
  cases j with
  | write level msg =>
    simp only [NLog.exec]
    split
    · split <;> exact ⟨_, rfl⟩
    · exact ⟨_, rfl⟩
  | setLogger l =>
    simp only [NLog.exec]
    split <;> exact ⟨_, rfl⟩

theorem wake_io {lp lp' : Looper.St Unit Log.Job Writer} (h : Wake lp) (hi : Looper.ioStep NLog.exec () lp = some lp') : Wake lp' := by
  unfold Looper.ioStep at hi
  rcases h.io with ⟨ho, hb⟩ | ⟨ho, hb⟩ | ho
  · rw [ho] at hi
    simp only at hi
    split at hi
    · rename_i rest hc
      injection hi with hi; subst hi
      exact ⟨h.sender, fun hq => h.quit (by rw [hc]; exact List.mem_cons_of_mem _ hq), .inr (.inl ⟨rfl, hb⟩), fun _ => .inr (.inr rfl)⟩
    · rename_i rest hc
      exact absurd (by rw [hc]; exact List.mem_cons_self) h.quit
    · rw [if_pos h.sender] at hi; cases hi
  · rw [ho] at hi
    simp only [Option.some.injEq] at hi
    subst hi
    exact ⟨h.sender, h.quit, .inr (.inr rfl), fun hq => absurd hb hq⟩
  · rw [ho] at hi
    simp only at hi
    have hw : lp.queue ≠ [] → 0 < lp.owed ∨ lp.chan ≠ [] := by
      intro hq
      rcases h.wake hq with h1 | h1 | h1
      · exact .inl h1
      · exact .inr h1
      · rw [ho] at h1; cases h1
    split at hi
    · rename_i hb
      injection hi with hi; subst hi
      exact ⟨h.sender, h.quit, .inl ⟨rfl, hb⟩, fun hq => (hw hq).elim .inl fun x => .inr (.inl x)⟩
    · rename_i j rest hb
      obtain ⟨w', hx⟩ := exec_done j lp.cb
      rw [hx] at hi
      simp only [Option.some.injEq] at hi
      subst hi
      exact ⟨h.sender, h.quit, .inr (.inr rfl), fun hq => (hw hq).elim .inl fun x => .inr (.inl x)⟩

theorem wake_cb {lp : Looper.St Unit Log.Job Writer} (h : Wake lp) (w : Writer) : Wake { lp with cb := w } :=
  ⟨h.sender, h.quit, h.io, h.wake⟩

theorem wake_nstep {s s' : St} {e : Log.Ev} {p : Bool} (h : Wake s.lp) (hs : NLog.step s e = some (s', p)) : Wake s'.lp := by
  cases e with
  | setLevel l => simp only [NLog.step, Option.some.injEq, Prod.mk.injEq] at hs; rw [← hs.1]; exact h
  | log level msg =>
    simp only [NLog.step] at hs
    split at hs <;> (simp only [Option.some.injEq, Prod.mk.injEq] at hs; rw [← hs.1]; exact h)
  | queue k =>
    simp only [NLog.step] at hs
    split at hs
    · cases hs
    · simp only [Option.some.injEq, Prod.mk.injEq] at hs; rw [← hs.1]; exact wake_push h _
  | setLogger l => simp only [NLog.step, Option.some.injEq, Prod.mk.injEq] at hs; rw [← hs.1]; exact wake_push h _
  | send =>
    simp only [NLog.step] at hs
    split at hs
    · simp only [Option.some.injEq, Prod.mk.injEq] at hs; rw [← hs.1]; exact wake_send h
    · cases hs
  | io =>
    simp only [NLog.step] at hs
    split at hs
    · cases hs
    rename_i lp hlp
    have h1 := wake_cb (wake_io h hlp) { lp.cb with dropped := [] }
    split at hs
    · simp only [Option.some.injEq, Prod.mk.injEq] at hs; rw [← hs.1]; exact h1
    · simp only [Option.some.injEq, Prod.mk.injEq] at hs
      rw [← hs.1]
      simp only [NLog.say]
      split
      · exact h1
      · exact wake_send (wake_push h1 _)

theorem wake_step {cb : List LogLevel} {s s' : St} {e : Log.Ev} {p : Bool} (h : Wake s.lp) (hs : step cb s e = some (s', p)) :
    Wake s'.lp := by
  unfold step at hs
  split at hs
  · cases hs
  rename_i s1 p1 hn
  have h1 := wake_nstep h hn
  split at hs
  · simp only [Option.some.injEq, Prod.mk.injEq] at hs; rw [← hs.1]; exact wake_sayAll _ _ h1
  · simp only [Option.some.injEq, Prod.mk.injEq] at hs; rw [← hs.1]; exact h1

theorem wake_run {cb : List LogLevel} : ∀ (es : List Log.Ev) {s s' : St} {ps : List Bool}, Wake s.lp → run cb s es = some (s', ps) →
    Wake s'.lp := by
  intro es
  induction es with
  | nil =>
    intro s s' ps h hr
    simp only [run, Option.some.injEq, Prod.mk.injEq] at hr
    rw [← hr.1]; exact h
  | cons e es ih =>
    intro s s' ps h hr
    obtain ⟨s1, p, ps1, h1, h2⟩ := run_cons hr
    exact ih (wake_step h h1) h2

theorem wake_new : Wake (Looper.new {} : Looper.St Unit Log.Job Writer) := ⟨rfl, by simp [Looper.new], .inl ⟨rfl, rfl⟩, by simp [Looper.new]⟩

theorem step_some {cb : List LogLevel} {s : St} {e : Log.Ev} (h : (NLog.step s e).isSome = true) : (step cb s e).isSome = true := by
  unfold step
  split
  · rename_i hn; rw [hn] at h; cases h
  · split <;> rfl

theorem io_some {cb : List LogLevel} {s : St} (h : (Looper.ioStep NLog.exec () s.lp).isSome = true) : (step cb s .io).isSome = true := by
  refine step_some ?_
  simp only [NLog.step]
  split
  · rename_i hn; rw [hn] at h; cases h
  · split <;> rfl

/-- While something is left to do, something can be done. -/
theorem wake_live {cb : List LogLevel} {s : St} (h : Wake s.lp) (hstuck : ∀ e, Winding e → step cb s e = none) :
    s.pending = [] ∧ s.lp.buf = [] ∧ s.lp.queue = [] ∧ s.lp.owed = 0 ∧ s.lp.io = .recv := by
  have hio : Looper.ioStep NLog.exec () s.lp = none := by
    cases hi : Looper.ioStep NLog.exec () s.lp with
    | none => rfl
    | some lp =>
      have := io_some (cb := cb) (s := s) (by rw [hi]; rfl)
      rw [hstuck .io trivial] at this; cases this
  have hp : s.pending = [] := by
    cases hp : s.pending with
    | nil => rfl
    | cons x xs =>
      have : (step cb s (.queue 0)).isSome = true := step_some (by simp [NLog.step, hp])
      rw [hstuck (.queue 0) trivial] at this; cases this
  have howed : s.lp.owed = 0 := by
    cases ho : s.lp.owed with
    | zero => rfl
    | succ n =>
      have : (step cb s .send).isSome = true := step_some (by simp [NLog.step, ho])
      rw [hstuck .send trivial] at this; cases this
  unfold Looper.ioStep at hio
  rcases h.io with ⟨ho, hb⟩ | ⟨ho, hb⟩ | ho
  · rw [ho] at hio
    simp only at hio
    split at hio
    · cases hio
    · cases hio
    · rename_i hc
      refine ⟨hp, hb, ?_, howed, ho⟩
      cases hq : s.lp.queue with
      | nil => rfl
      | cons x xs =>
        rcases h.wake (by rw [hq]; simp) with h1 | h1 | h1
        · omega
        · exact absurd hc h1
        · rw [ho] at h1; cases h1
  · rw [ho] at hio; cases hio
  · rw [ho] at hio
    simp only at hio
    split at hio
    · cases hio
    · rename_i j rest _
      obtain ⟨w', hx⟩ := exec_done j s.lp.cb
      rw [hx] at hio; cases hio

theorem start_facts : ({} : St).lp.cb.dropped = [] ∧ ({} : St).lp.sender = true ∧ total {} = 1 ∧ ({} : St).pending.length + load ({} : St).lp = 0 :=
  ⟨rfl, rfl, rfl, rfl⟩

/-! ### The theorems -/

/-- **C78.**  A call of the C interface makes at most five messages, for every type, every outcome and whatever is on the
heap. -/
theorem C78_calls (c : CCall) : c.log.length ≤ 5 := by
  have hfail : ∀ e, (failLog e).length ≤ 4 := by
    intro e; cases e <;> simp [failLog, Ffi.errorCode, errorLog, leakLog]
  cases c with
  | get t r =>
    cases r with
    | ok v => cases t <;> simp [CCall.log, getLog, dataLog, leakLog]
    | err e => exact Nat.le_trans (hfail e) (by omega)
    | panic => simp [CCall.log, getLog]
  | unit r =>
    cases r with
    | ok v => simp [CCall.log, unitLog, leakLog]
    | err e => exact Nat.le_trans (hfail e) (by omega)
    | panic => simp [CCall.log, unitLog]
  | free h p =>
    simp only [CCall.log, freeLog]
    split
    · rename_i d t e hr
      have h1 : (dropDataLog d t).length ≤ 2 := by
        unfold dropDataLog
        split
        · simp
        · cases t <;> simp [releaseLog]
      have h2 : (dropErrorLog h e).length ≤ 2 := by
        unfold dropErrorLog
        split
        · simp
        · split
          · split <;> simp [releaseLog]
          · simp
      simp [releaseLog]; omega
    · simp

/-- The store's answer that a call passes on. -/
def CCall.failed? : CCall → Bool
  | .get _ (.err _) => true
  | .unit (.err _) => true
  | _ => false

/-- **C78.**  What the messages are: a call that the store refused makes exactly one message above `Verbose`, an `Error`, and it is the first; every other
call, and freeing a result, makes `Verbose` messages only. -/
theorem C78_levels (c : CCall) :
    c.log.filter (· ≠ .verbose) = (if c.failed? then [.error] else []) ∧ (c.failed? = true → c.log.head? = some .error) := by
  have hfail : ∀ e, (failLog e).filter (· ≠ .verbose) = [.error] ∧ (failLog e).head? = some .error := by
    intro e; cases e <;> simp [failLog, Ffi.errorCode, errorLog, leakLog]
  cases c with
  | get t r =>
    cases r with
    | ok v => cases t <;> simp [CCall.log, getLog, dataLog, leakLog, CCall.failed?]
    | err e => exact ⟨(hfail e).1, fun _ => (hfail e).2⟩
    | panic => simp [CCall.log, getLog, CCall.failed?]
  | unit r =>
    cases r with
    | ok v => simp [CCall.log, unitLog, leakLog, CCall.failed?]
    | err e => exact ⟨(hfail e).1, fun _ => (hfail e).2⟩
    | panic => simp [CCall.log, unitLog, CCall.failed?]
  | free h p =>
    refine ⟨?_, by simp [CCall.failed?]⟩
    show (freeLog h p).filter _ = []
    rw [List.filter_eq_nil_iff]
    intro m hm
    unfold freeLog at hm
    split at hm
    · rename_i d t e hr
      simp only [List.mem_append] at hm
      have hd : m ∈ dropDataLog d t → m = .verbose := by
        unfold dropDataLog
        split
        · simp
        · cases t <;> simp [releaseLog]
      have he : m ∈ dropErrorLog h e → m = .verbose := by
        unfold dropErrorLog
        split
        · simp
        · split
          · split <;> simp [releaseLog]
          · simp
      rcases hm with (hm | hm) | hm
      · simp [releaseLog] at hm; simp [hm]
      · simp [hd hm]
      · simp [he hm]
    · cases hm

section Balance
open Ffi

/-- **C78.**  Taking a result back makes exactly one message less than handing it out (the call's own), for every type, every outcome, every heap:
each leak that is logged is logged again when it is released. -/
theorem C78_balance_get (h : Heap) (t : Ty) (r : Out t.Val) {h' : Heap} {p : Ptr} (hr : getRet h t r = .ok h' p) :
    (freeLog h' p).length + 1 = (getLog t r).length := by
  cases r with
  | ok v =>
    cases t <;> simp only [getRet, leakData, leakSlice, leakArray, Ret.ok.injEq] at hr <;> obtain ⟨rfl, rfl⟩ := hr <;>
      simp [freeLog, Heap.alloc, Heap.read, lRawBuffer, lTypedArray, lByteSlice, l32, l64, lBool, dropDataLog, dropErrorLog, releaseLog, getLog, dataLog, leakLog]
  | err e =>
    cases e <;> simp only [getRet, errorCode, leakError, leakSlice, Ret.ok.injEq, reduceCtorEq] at hr <;> (try obtain ⟨rfl, rfl⟩ := hr) <;>
      simp [freeLog, Heap.alloc, Heap.read, lRawBuffer, lInternalError, lByteSlice, dropDataLog, dropErrorLog, releaseLog, getLog, failLog, errorLog, errorCode, leakLog]
  | panic => simp [getRet] at hr

/-- The same for `put_…` and `delete`. -/
theorem C78_balance_unit (h : Heap) (t : Ty) (r : Out Unit) {h' : Heap} {p : Ptr} (hr : unitRet h t r = .ok h' p) :
    (freeLog h' p).length + 1 = (unitLog r).length := by
  cases r with
  | ok v =>
    simp only [unitRet, Ret.ok.injEq] at hr; obtain ⟨rfl, rfl⟩ := hr
    simp [freeLog, Heap.alloc, Heap.read, lRawBuffer, dropDataLog, dropErrorLog, releaseLog, unitLog, leakLog]
  | err e =>
    cases e <;> simp only [unitRet, errorCode, leakError, leakSlice, Ret.ok.injEq, reduceCtorEq] at hr <;> (try obtain ⟨rfl, rfl⟩ := hr) <;>
      simp [freeLog, Heap.alloc, Heap.read, lRawBuffer, lInternalError, lByteSlice, dropDataLog, dropErrorLog, releaseLog, unitLog, failLog, errorLog, errorCode, leakLog]
  | panic => simp [unitRet] at hr

end Balance

/-- **C78.**  Whatever happens, no more messages come out than there were log calls in the library and the C interface, plus
one for every `set_logger` (the replaced logger's destructor logs): handing a message to a native logger makes none. -/
theorem C78_count (es : List Log.Ev) (s : St) (ps : List Bool) (h : run [] {} es = some (s, ps)) :
    messages s.lp.cb.out ≤ es.countP isLog + es.countP isSet := by
  have h1 := (run_facts es start_facts.1 start_facts.2.1 h).2.2.2
  have h2 := start_facts.2.2.2
  have : messages s.lp.cb.out ≤ load s.lp := by simp only [load]; omega
  rw [h2] at h1
  simp only [List.length_nil, Nat.zero_mul] at h1
  omega

/-- **C78.**  Of a program whose log calls are those of its calls of the C interface: at most five messages a call, plus one
for every `set_logger`. -/
theorem C78_program (cs : List CCall) (es : List Log.Ev) (s : St) (ps : List Bool)
    (hcs : es.filterMap (fun | .log level _ => some level | _ => none) = cs.flatMap CCall.log) (h : run [] {} es = some (s, ps)) :
    messages s.lp.cb.out ≤ 5 * cs.length + es.countP isSet := by
  have h1 := C78_count es s ps h
  have h2 : es.countP isLog = (es.filterMap (fun | .log level _ => some level | _ => none : Log.Ev → Option LogLevel)).length := by
    clear h hcs h1
    induction es with
    | nil => rfl
    | cons e es ih => cases e <;> simp [List.countP_cons, isLog, ih]
  have h3 : (cs.flatMap CCall.log).length ≤ 5 * cs.length := by
    clear hcs
    induction cs with
    | nil => simp
    | cons c cs ih =>
      have := C78_calls c
      simp only [List.flatMap_cons, List.length_append, List.length_cons]
      omega
  rw [hcs] at h2
  omega

/-- **C78.**  When the program stops calling, the log falls silent: after any history, at most `1 + 9n` more steps (n: the
number of events so far) can happen without another call, and when none can, every message has come out. -/
theorem C78_silent (es : List Log.Ev) (s : St) (ps : List Bool) (h : run [] {} es = some (s, ps)) :
    (∀ es' s' ps', (∀ e ∈ es', Winding e) → run [] s es' = some (s', ps') → es'.length ≤ 1 + 9 * es.length) ∧
    (∀ es' s' ps', run [] s es' = some (s', ps') → (∀ e, Winding e → step [] s' e = none) →
      s'.pending = [] ∧ s'.lp.buf = [] ∧ s'.lp.queue = []) := by
  obtain ⟨hd, hs, ht, _⟩ := run_facts es start_facts.1 start_facts.2.1 h
  refine ⟨?_, ?_⟩
  · intro es' s' ps' hw h'
    have := wind_bound es' hd hs (by simp) hw h'
    have h0 := start_facts.2.2.1
    simp only [List.length_nil, Nat.mul_zero, Nat.add_zero] at ht
    omega
  · intro es' s' ps' h' hstuck
    have := wake_live (wake_run es' (wake_run es wake_new h) h') hstuck
    exact ⟨this.1, this.2.1, this.2.2.1⟩

/-- A program that installs a logger, logs through it, replaces it: five messages, then silence. -/
def demo : List Log.Ev :=
  [.setLogger (some 1), .send, .io, .io, .io, .io, .log .verbose "a", .log .error "b", .queue 1, .send, .setLogger (some 2), .queue 0, .send, .send,
    .io, .io, .io, .io, .io, .io, .io, .io, .io, .io, .io, .io, .io, .io, .io, .io]

example : (match run [] {} demo with
    | some (s, _) => s.lp.cb.out == [.call 1 .error "b", .destroy 1, .call 2 .verbose "a", .call 2 .verbose (NLog.releaseMsg 1)] &&
        (step [] s .io).isNone && (step [] s .send).isNone && s.pending.isEmpty
    | none => false) = true := by decide +kernel

/-- A `get_…` of an array and a failing one, both given back: the hypothesis of `C78_program` for these calls. -/
example : ([CCall.get .i32Array (.ok [1, 2]), .get .str (.err (.decodeFailed "x"))].flatMap CCall.log) =
    [.verbose, .verbose, .verbose, .verbose, .error, .verbose, .verbose, .verbose] := rfl

/-! ### C79: a logger that uses the library -/

theorem nlog_out {s s' : St} {p : Bool} (h : NLog.step s .io = some (s', p)) : ∃ x, s'.lp.cb.out = s.lp.cb.out ++ x := by
  simp only [NLog.step] at h
  split at h
  · cases h
  rename_i lp hlp
  have key : ∃ x, lp.cb.out = s.lp.cb.out ++ x := by
    unfold Looper.ioStep at hlp
    split at hlp
    · split at hlp
      · injection hlp with hlp; subst hlp; exact ⟨[], by simp⟩
      · injection hlp with hlp; subst hlp; exact ⟨[], by simp⟩
      · split at hlp
        · cases hlp
        · injection hlp with hlp; subst hlp; exact ⟨[], by simp⟩
    · injection hlp with hlp; subst hlp; exact ⟨[], by simp⟩
    · split at hlp
      · injection hlp with hlp; subst hlp; exact ⟨[], by simp⟩
      · rename_i j rest hb
        have hx : ∀ w, NLog.exec () j s.lp.cb = .done w → ∃ x, w.out = s.lp.cb.out ++ x := by
          intro w hw
          cases j with
          | write level msg =>
            simp only [NLog.exec] at hw
            split at hw
            · split at hw <;> (injection hw with hw; subst hw)
              · exact ⟨_, rfl⟩
              · exact ⟨[], by simp⟩
            · injection hw with hw; subst hw; exact ⟨_, rfl⟩
          | setLogger l =>
            simp only [NLog.exec] at hw
            split at hw <;> (injection hw with hw; subst hw)
            · exact ⟨[], by simp⟩
            · exact ⟨_, rfl⟩
        obtain ⟨w, hw⟩ := exec_done j s.lp.cb
        rw [hw] at hlp
        injection hlp with hlp; subst hlp
        exact hx w hw
    · injection hlp with hlp; subst hlp; exact ⟨[], by simp⟩
    · cases hlp
    · cases hlp
  split at h
  · simp only [Option.some.injEq, Prod.mk.injEq] at h
    rw [← h.1]; exact key
  · simp only [Option.some.injEq, Prod.mk.injEq] at h
    rw [← h.1]
    simp only [NLog.say]
    split
    · exact key
    · rw [(say_mu _ _ _).2.2]; exact key

/-- A step of the log thread uses up work, unless it hands over a message. -/
theorem step_io_cost {cb : List LogLevel} {s s' : St} {p : Bool} (hd : s.lp.cb.dropped = []) (h : step cb s .io = some (s', p)) :
    mu s'.lp + 1 + 4 * cb.length * messages s.lp.cb.out ≤ mu s.lp + 4 * cb.length * messages s'.lp.cb.out := by
  unfold step at h
  split at h
  · cases h
  rename_i s1 p1 hn
  obtain ⟨x, hx⟩ := nlog_out hn
  have hm : messages s1.lp.cb.out = messages s.lp.cb.out + messages x := by rw [hx, messages_append]
  obtain ⟨_, _, _, e4, _⟩ := io_mu hd hn
  split at h
  · rename_i l lv t hc
    simp only [Option.some.injEq, Prod.mk.injEq] at h
    obtain ⟨rfl, rfl⟩ := h
    have hs := sayAll_mu s1.level (callTargetLog cb) s1.lp
    rw [callTargetLog_length] at hs
    have hx1 : messages x = 1 := by
      rw [hx, List.drop_left] at hc
      rw [hc]; rfl
    simp only [hs.2.2, hm, hx1, Nat.mul_add]
    omega
  · simp only [Option.some.injEq, Prod.mk.injEq] at h
    obtain ⟨rfl, rfl⟩ := h
    rw [hm, Nat.mul_add]
    omega

/-- The log thread has a message to hand over, and everything it will do is that. -/
structure Busy (s : St) : Prop where
  wake : Wake s.lp
  dropped : s.lp.cb.dropped = []
  logger : s.lp.cb.inner.isSome = true
  real : ∀ j ∈ s.lp.buf ++ s.lp.queue, ∃ l t, j = .write l t ∧ l ≠ .off
  more : s.lp.buf ++ s.lp.queue ≠ []
  owed : s.lp.owed = 0

theorem sayAll_busy (level : Int) : ∀ (ms : List LogLevel) (lp : Looper.St Unit Log.Job Writer), Wake lp →
    (sayAll level lp ms).buf = lp.buf ∧ (sayAll level lp ms).owed = lp.owed ∧
      (∃ new, (sayAll level lp ms).queue = lp.queue ++ new ∧ (∀ j ∈ new, ∃ l ∈ ms, j = .write l "") ∧
        ((∃ m ∈ ms, m.code ≤ level) → new ≠ [])) := by
  intro ms
  induction ms with
  | nil => intro lp _; exact ⟨rfl, rfl, [], by simp [sayAll], by simp, by simp⟩
  | cons m ms ih =>
    intro lp hw
    simp only [sayAll]
    split
    · rename_i hlt
      obtain ⟨h1, h2, new, h3, h4, h5⟩ := ih lp hw
      refine ⟨h1, h2, new, h3, ?_, ?_⟩
      · intro j hj
        obtain ⟨l, hl, he⟩ := h4 j hj
        exact ⟨l, List.mem_cons_of_mem _ hl, he⟩
      · rintro ⟨m', hm', hc⟩
        rcases List.mem_cons.1 hm' with rfl | hm'
        · omega
        · exact h5 ⟨m', hm', hc⟩
    · have hw2 := wake_send (wake_push hw (.write m ""))
      have hp : (Looper.send (Looper.push lp (.write m ""))).1.buf = lp.buf ∧ (Looper.send (Looper.push lp (.write m ""))).1.owed = lp.owed ∧
          (Looper.send (Looper.push lp (.write m ""))).1.queue = lp.queue ++ [.write m ""] := by
        unfold Looper.send Looper.push
        rw [if_pos hw.sender, if_pos hw.sender, if_neg (by rcases hw.io with hi | hi | hi <;> simp [hi])]
        simp
      obtain ⟨h1, h2, new, h3, h4, h5⟩ := ih _ hw2
      refine ⟨h1.trans hp.1, h2.trans hp.2.1, .write m "" :: new, by rw [h3, hp.2.2]; simp, ?_, by simp⟩
      intro j hj
      rcases List.mem_cons.1 hj with rfl | hj
      · exact ⟨m, List.mem_cons_self, rfl⟩
      · obtain ⟨l, hl, he⟩ := h4 j hj
        exact ⟨l, List.mem_cons_of_mem _ hl, he⟩

theorem busy_step {cb : List LogLevel} {s : St} (hoff : ∀ m ∈ cb, m ≠ .off) (hloud : ∃ m ∈ cb, m.code ≤ s.level) (h : Busy s) :
    ∃ s' p, step cb s .io = some (s', p) ∧ Busy s' ∧ s'.level = s.level := by
  have hw := h.wake
  have hlive : ∃ lp, Looper.ioStep NLog.exec () s.lp = some lp ∧ lp.cb.dropped = [] ∧
      ((lp.cb = s.lp.cb ∧ (lp.buf ++ lp.queue = s.lp.buf ++ s.lp.queue) ∧ lp.owed = 0) ∨
       (∃ l lv t, lp.cb.out = s.lp.cb.out ++ [.call l lv t] ∧ lp.cb.inner = s.lp.cb.inner ∧ lp.owed = 0 ∧
         (∀ j ∈ lp.buf ++ lp.queue, j ∈ s.lp.buf ++ s.lp.queue))) := by
    rcases hw.io with ⟨ho, hb⟩ | ⟨ho, hb⟩ | ho
    · have hq : s.lp.queue ≠ [] := by have := h.more; rw [hb] at this; simpa using this
      have hc : s.lp.chan ≠ [] := by
        rcases hw.wake hq with h1 | h1 | h1
        · have := h.owed; omega
        · exact h1
        · rw [ho] at h1; cases h1
      cases hch : s.lp.chan with
      | nil => exact absurd hch hc
      | cons c rest =>
        cases c with
        | quit => exact absurd (by rw [hch]; exact List.mem_cons_self) hw.quit
        | next =>
          refine ⟨{ s.lp with io := .swap, chan := rest }, by simp [Looper.ioStep, ho, hch], h.dropped, .inl ⟨rfl, rfl, h.owed⟩⟩
    · refine ⟨{ s.lp with buf := s.lp.queue, queue := s.lp.buf, io := .run }, by simp [Looper.ioStep, ho], h.dropped, .inl ⟨rfl, ?_, h.owed⟩⟩
      simp [hb]
    · cases hb : s.lp.buf with
      | nil =>
        refine ⟨{ s.lp with io := .recv }, by simp [Looper.ioStep, ho, hb], h.dropped, .inl ⟨rfl, by simp [hb], h.owed⟩⟩
      | cons j rest =>
        obtain ⟨lv, t, rfl, hne⟩ := h.real j (by rw [hb]; simp)
        obtain ⟨l, hl⟩ := Option.isSome_iff_exists.1 h.logger
        have hex : NLog.exec () (.write lv t) s.lp.cb = .done { s.lp.cb with out := s.lp.cb.out ++ [.call l lv t] } := by
          cases lv <;> first | exact absurd rfl hne | simp [NLog.exec, hl, Log.redirect]
        refine ⟨{ s.lp with cb := { s.lp.cb with out := s.lp.cb.out ++ [.call l lv t] }, buf := rest, ran := s.lp.ran ++ [((), .write lv t)] },
          by simp only [Looper.ioStep, ho, hb, hex], h.dropped, .inr ⟨l, lv, t, rfl, rfl, h.owed, ?_⟩⟩
        intro j hj
        simp only [List.mem_append, List.mem_cons] at hj ⊢
        rcases hj with hj | hj
        · exact .inl (.inr hj)
        · exact .inr hj
  obtain ⟨lp, hlp, hdr, hcase⟩ := hlive
  have hw1 : Wake { lp with cb := { lp.cb with dropped := [] } } := wake_cb (wake_io hw hlp) _
  have hn : NLog.step s .io = some ({ s with lp := { lp with cb := { lp.cb with dropped := [] } } }, false) := by
    simp only [NLog.step, hlp, hdr]
  rcases hcase with ⟨hcb, hbq, how⟩ | ⟨l, lv, t, hout, hin, how, hsub⟩
  · refine ⟨{ s with lp := { lp with cb := { lp.cb with dropped := [] } } }, false, ?_, ?_, rfl⟩
    · simp only [step, hn, hcb, drop_self]
    · exact ⟨hw1, rfl, by simp only [hcb]; exact h.logger, by simp only [hbq]; exact h.real, by simp only [hbq]; exact h.more, how⟩
  · obtain ⟨b1, b2, new, b3, b4, b5⟩ := sayAll_busy s.level (callTargetLog cb) _ hw1
    refine ⟨{ s with lp := sayAll s.level { lp with cb := { lp.cb with dropped := [] } } (callTargetLog cb) }, false, ?_, ?_, rfl⟩
    · simp only [step, hn, hout, List.drop_left]
    · have hc := (sayAll_mu s.level (callTargetLog cb) { lp with cb := { lp.cb with dropped := [] } }).2.2
      rw [callTargetLog_eq] at *
      refine ⟨wake_sayAll _ _ hw1, by simp only [hc], by rw [hc]; exact (congrArg Option.isSome hin).trans h.logger, ?_, ?_, ?_⟩
      · intro j hj
        simp only [b1, b3] at hj
        rw [← List.append_assoc] at hj
        rcases List.mem_append.1 hj with hj | hj
        · exact h.real j (hsub j hj)
        · obtain ⟨m, hm, rfl⟩ := b4 j hj
          exact ⟨m, "", rfl, hoff m hm⟩
      · simp only [b1, b3]
        have := b5 hloud
        simp [this]
      · simp only [b2]; exact how

theorem busy_runs {cb : List LogLevel} (hoff : ∀ m ∈ cb, m ≠ .off) : ∀ (n : Nat) {s : St}, (∃ m ∈ cb, m.code ≤ s.level) → Busy s →
    ∃ s' ps, run cb s (List.replicate n .io) = some (s', ps) ∧ n + 4 * cb.length * messages s.lp.cb.out + mu s'.lp ≤ mu s.lp + 4 * cb.length * messages s'.lp.cb.out := by
  intro n
  induction n with
  | zero => intro s _ _; exact ⟨s, [], rfl, by omega⟩
  | succ n ih =>
    intro s hl h
    obtain ⟨s1, p, h1, hb, hlv⟩ := busy_step hoff hl h
    obtain ⟨s2, ps, h2, hc⟩ := ih (by rw [hlv]; exact hl) hb
    have := step_io_cost h.dropped h1
    refine ⟨s2, p :: ps, ?_, by omega⟩
    simp only [List.replicate_succ, run, h1, h2]

/-- Install a logger, then log one message. -/
def oneMessage : List Log.Ev := [.setLogger (some 1), .send, .io, .io, .io, .io, .log .info "hello", .queue 0, .send]

/-- **C79, refuted.**  If the logger makes any call of the library that logs at the current level (at the default level: any
`put_…`, `get_…` or `delete` of the C interface or of Kotlin), one message is enough: the log thread never comes to rest, and
the number of messages grows beyond every bound, although the program makes no call any more. -/
theorem C79_refuted (cb : List LogLevel) (hne : cb ≠ []) (hoff : ∀ m ∈ cb, m ≠ .off) :
    ∃ s ps, run cb {} oneMessage = some (s, ps) ∧ (∀ n, (run cb s (List.replicate n .io)).isSome = true) ∧
      ∀ n, ∃ k s' ps', run cb s (List.replicate k .io) = some (s', ps') ∧ n ≤ messages s'.lp.cb.out := by
  obtain ⟨m, hm⟩ := List.exists_mem_of_ne_nil cb hne
  let s : St := { lp := { queue := [.write .info "hello"], chan := [.next], io := .recv, cb := { inner := some 1 },
                          pushed := [.setLogger (some 1), .write .info "hello"], ran := [((), .setLogger (some 1))] } }
  have hs : run cb {} oneMessage = some (s, List.replicate 9 false) := rfl
  have hbusy : Busy s := by
    refine ⟨⟨rfl, by simp [s], .inl ⟨rfl, rfl⟩, fun _ => .inr (.inl (by simp [s]))⟩, rfl, rfl, ?_, by simp [s], rfl⟩
    intro j hj
    have : j = .write .info "hello" := by simpa [s] using hj
    exact ⟨.info, "hello", this, by simp⟩
  have hloud : ∃ m ∈ cb, m.code ≤ s.level := ⟨m, hm, by cases m <;> decide⟩
  refine ⟨s, _, hs, ?_, ?_⟩
  · intro n
    obtain ⟨s', ps, h, _⟩ := busy_runs hoff n hloud hbusy
    rw [h]; rfl
  · intro n
    obtain ⟨s', ps, h, hc⟩ := busy_runs hoff (mu s.lp + 4 * cb.length * n) hloud hbusy
    refine ⟨_, s', ps, h, ?_⟩
    have hpos : 0 < 4 * cb.length := by
      have := List.length_pos_of_mem hm; omega
    refine Nat.le_of_mul_le_mul_left ?_ hpos
    omega

/-- A successful `put_…` from the callback is such a call. -/
example : unitLog (.ok ()) ≠ [] ∧ ∀ m ∈ unitLog (.ok ()), m ≠ .off := by decide

/-- **C79, partial.**  If the level filters out the messages of the logger's own calls, the log falls silent all the same:
after any history, as long as the program makes no other call, only `1 + (9 + 4k)n` steps are possible (n: events so far, k:
messages per call of the callback).  Missing: levels that let them through, for which the claim is false. -/
theorem C79_partial (cb : List LogLevel) (es : List Log.Ev) (s : St) (ps : List Bool) (h : run cb {} es = some (s, ps))
    (hquiet : ∀ m ∈ cb, s.level < m.code) (es' : List Log.Ev) (s' : St) (ps' : List Bool) (hw : ∀ e ∈ es', Winding e)
    (h' : run cb s es' = some (s', ps')) : es'.length ≤ 1 + (9 + 4 * cb.length) * es.length := by
  obtain ⟨hd, hs, ht, _⟩ := run_facts es start_facts.1 start_facts.2.1 h
  have := wind_bound es' hd hs hquiet hw h'
  have h0 := start_facts.2.2.1
  omega

/-- With the level `Info` a logger may store what it is told: successful puts log at `Verbose`. -/
example : ∀ m ∈ unitLog (.ok ()), LogLevel.info.code < m.code := by decide

example : (match run (unitLog (.ok ())) {} (.setLevel .info :: oneMessage ++ [.io, .io, .io, .io]) with
    | some (s, _) => s.lp.cb.out == [.call 1 .info "hello"] && (step (unitLog (.ok ())) s .io).isNone && s.level == LogLevel.info.code
    | none => false) = true := by decide +kernel

end Mmkv.CLog
