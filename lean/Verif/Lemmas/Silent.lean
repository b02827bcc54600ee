import Verif.Lemmas.Session
import Verif.Lemmas.Fatal
/-! Histories with records of any size, seen from their end: what the jobs did is a function of the list of jobs run. -/

namespace Mmkv
open Spec
variable {ι : Type}

/-- A valid writer whose content and records are at most `A` bytes and at most `P` records. -/
structure SInv (c : Codec) (okB : Buffer → Prop) (recLen : Buffer → Nat) (A P : Nat)
    (s : WState) (content : Bytes) (items : List (Option Buffer)) : Prop extends Valid c s content items where
  quota : s.quota = none
  bufs : ∀ b, some b ∈ items → okB b
  size : content.length ≤ A
  total : recSum recLen items ≤ A
  count : items.length ≤ P

/-- One write of any size: done, keeping the invariant, or a panic. -/
theorem write_sized {c : Codec} {okB : Buffer → Prop} {posOk : Nat → Prop} {recLen : Buffer → Nat} {A P : Nat} {s : WState}
    {content : Bytes} {items : List (Option Buffer)}
    (hl : LawfulCodec c okB posOk recLen) (order : List Buffer → List Buffer)
    (ho : ∀ l, (order l).Perm l) (b : Buffer) (dup : Bool) (h : SInv c okB recLen A P s content items)
    (hokb : okB b) (hA : A + recLen b + 8 < 2 ^ 64) (hP : posOk (P + 1)) :
    (∃ s' content' items', WState.write c order b dup s = .done s' ∧ SInv c okB recLen (A + recLen b) (P + 1) s' content' items' ∧
      SameConf s s' ∧ Store.empty.run (mutations items') = (Store.empty.run (mutations items)).apply b.mutation) ∨
    ∃ s', WState.write c order b dup s = .panic s' := by
  have hsize := h.size
  have htotal := h.total
  have hcount := h.count
  have hbufs : ∀ b', some b' ∈ items ++ [some b] → okB b' := by
    intro b' hb'
    rcases List.mem_append.1 hb' with hb' | hb'
    · exact h.bufs b' hb'
    · simp at hb'; subst hb'; exact hokb
  rcases write_or hl order ho b dup h.toValid h.quota hbufs (by omega) (by omega) (hl.posOk_mono _ _ hP (by omega)) with
    ⟨s', content', items', hw, hv', hc, hshape, hmut⟩ | ⟨s', hw, _⟩
  · left
    have h3 : recSum recLen [some b] = recLen b := by simp [recSum, sumLen]
    refine ⟨s', content', items', hw, ⟨hv', by rw [hc.quota, h.quota], ?_, ?_, ?_, ?_⟩, hc, hmut⟩
    · intro b' hb'
      cases hshape with
      | append _ hi => rw [hi] at hb'; exact hbufs b' hb'
      | expand _ _ hi => rw [hi] at hb'; exact hbufs b' hb'
      | trim _ _ hi =>
        rw [hi] at hb'
        obtain ⟨b'', hb'', e⟩ := List.mem_map.1 hb'
        injection e with e; subst e
        exact hbufs _ (mem_snapshot ((ho _).mem_iff.1 hb''))
    · cases hshape with
      | append _ _ hc => obtain ⟨r, hr, rfl⟩ := hc; rw [List.length_append]; omega
      | expand _ _ _ hc => obtain ⟨r, hr, rfl⟩ := hc; rw [List.length_append]; omega
      | trim _ _ _ hc => have := snapshot_sum (recLen := recLen) items b; omega
    · cases hshape with
      | append _ hi => rw [hi, recSum_append, h3]; omega
      | expand _ _ hi => rw [hi, recSum_append, h3]; omega
      | trim _ _ hi =>
        have := snapshot_sum (recLen := recLen) items b
        rw [hi, recSum_map_some, sumLen_perm _ (ho _)]; omega
    · cases hshape with
      | append _ hi => rw [hi]; simp; omega
      | expand _ _ hi => rw [hi]; simp; omega
      | trim _ _ hi =>
        have := snapshot_length items b
        rw [hi, List.length_map, (ho _).length_eq]; simp [KvMap.values]; omega
  · exact .inr ⟨s', hw⟩

/-- Bytes a job writes. -/
def jobLen (recLen : Buffer → Nat) : Job → Nat
  | .write b _ => recLen b
  | .remove => 0

/-- Bytes some jobs write. -/
def jobsLen (recLen : Buffer → Nat) (js : List Job) : Nat := (js.map (jobLen recLen)).sum

theorem jobsLen_append (recLen : Buffer → Nat) (a b : List Job) : jobsLen recLen (a ++ b) = jobsLen recLen a + jobsLen recLen b := by
  simp [jobsLen]

/-- Jobs run without a panic: each did what it should. -/
theorem execAll_sized {c : Codec} {okB : Buffer → Prop} {posOk : Nat → Prop} {recLen : Buffer → Nat}
    (hl : LawfulCodec c okB posOk recLen) (ran : List (Order × Job)) :
    ∀ {A P : Nat} {cb cb' : Cb} {content : Bytes} {items : List (Option Buffer)},
      SInv c okB recLen A P cb.ws content items →
      (∀ b dup, Job.write b dup ∈ ran.map (·.2) → okB b) → (∀ p ∈ ran, ∀ l, (p.1 l).Perm l) →
      A + jobsLen recLen (ran.map (·.2)) + 8 < 2 ^ 64 → posOk (P + ran.length) →
      Looper.execAll (fun o j cb => execJob c o j cb) cb ran = .done cb' →
      ∃ content' items', SInv c okB recLen (A + jobsLen recLen (ran.map (·.2))) (P + ran.length) cb'.ws content' items' ∧
        SameConf cb.ws cb'.ws ∧
        ((∀ p ∈ ran, p.2.isWrite = true) → cb'.removed = cb.removed ∧
          Store.empty.run (mutations items') = (Store.empty.run (mutations items)).run (ran.map (·.2.mutation))) := by
  induction ran with
  | nil =>
    intro A P cb cb' content items h _ _ _ _ he
    simp only [Looper.execAll, Run.done.injEq] at he
    subst he
    exact ⟨content, items, by simpa [jobsLen] using h, .rfl', fun _ => ⟨rfl, rfl⟩⟩
  | cons p ran ih =>
    intro A P cb cb' content items h hok hord hA hP he
    obtain ⟨o, j⟩ := p
    simp only [Looper.execAll] at he
    simp only [List.map_cons, jobsLen, List.sum_cons, List.length_cons] at hA hP
    cases j with
    | remove =>
      simp only [execJob, Run.andThen_done] at he
      obtain ⟨c', i', h1, h2, h3⟩ := ih (cb := { cb with removed := true }) (P := P) h
        (fun b dup hb => hok b dup (List.mem_cons_of_mem _ hb)) (fun p hp => hord p (List.mem_cons_of_mem _ hp))
        (by simpa [jobLen, jobsLen] using hA) (hl.posOk_mono _ _ hP (by omega)) he
      refine ⟨c', i', ?_, h2, ?_⟩
      · obtain ⟨hv, q1, q2, q3, q4, q5⟩ := h1
        exact ⟨hv, q1, q2, by simpa [jobLen, jobsLen] using q3, by simpa [jobLen, jobsLen] using q4, by simp; omega⟩
      · intro hw
        have := hw _ List.mem_cons_self
        simp [Job.isWrite] at this
    | write b dup =>
      simp only [jobLen] at hA
      have hokb := hok b dup List.mem_cons_self
      rcases write_sized hl o (hord _ List.mem_cons_self) b dup h hokb (by omega) (hl.posOk_mono _ _ hP (by omega)) with
        ⟨s', content', items', hw, hs', hc, hmut⟩ | ⟨s', hw⟩
      · simp only [execJob, hw, Run.andThen_done] at he
        obtain ⟨c2, i2, h1, h2, h3⟩ := ih (cb := { cb with ws := s' }) hs'
          (fun b dup hb => hok b dup (List.mem_cons_of_mem _ hb)) (fun p hp => hord p (List.mem_cons_of_mem _ hp))
          (by simp only [jobsLen]; omega) (by rw [show P + 1 + ran.length = P + (ran.length + 1) by omega]; exact hP) he
        refine ⟨c2, i2, ?_, hc.trans h2, ?_⟩
        · obtain ⟨hv, q1, q2, q3, q4, q5⟩ := h1
          simp only [jobsLen] at q3 q4
          exact ⟨hv, q1, q2, by simp only [List.map_cons, jobsLen, List.sum_cons, jobLen]; omega,
            by simp only [List.map_cons, jobsLen, List.sum_cons, jobLen]; omega, by simp only [List.length_cons]; omega⟩
        · intro hwr
          obtain ⟨g1, g2⟩ := h3 fun p hp => hwr p (List.mem_cons_of_mem _ hp)
          refine ⟨g1, ?_⟩
          rw [g2, hmut]
          rfl
      · simp only [execJob, hw] at he
        cases he

namespace Inst

/-- A step of a call that does not re-create the store moves jobs but runs none. -/
theorem api_quiet {codecs : ι → Codec} {s s' : Inst ι} {i : ι} {r : Option (Out Unit)} (h : Book codecs s)
    (hs : step codecs s (.api i) = some (s', r)) (hp : s.phase ≠ .clrOpen) :
    s'.jobs = s.jobs ∧ s'.lp.ran = s.lp.ran ∧ s'.lp.cb = s.lp.cb ∧ s'.lp.io = s.lp.io ∧ s'.idx = s.idx := by
  have hsd := h.sender
  simp only [step] at hs
  cases hph : s.phase with
  | idle => simp [hph] at hs
  | closed => simp [hph] at hs
  | clrOpen => exact absurd hph hp
  | push j =>
    simp only [hph, Option.some.injEq, Prod.mk.injEq] at hs; obtain ⟨rfl, _⟩ := hs
    rw [hph] at hsd
    simp [jobs, hph, Looper.push, show s.lp.sender = true from hsd, Phase.inflight]
  | clrPush =>
    simp only [hph, Option.some.injEq, Prod.mk.injEq] at hs; obtain ⟨rfl, _⟩ := hs
    rw [hph] at hsd
    simp [jobs, hph, Looper.push, show s.lp.sender = true from hsd, Phase.inflight]
  | send =>
    simp only [hph, Option.some.injEq, Prod.mk.injEq] at hs; obtain ⟨rfl, _⟩ := hs
    unfold Looper.send
    simp only [jobs, hph, Phase.inflight]
    split <;> (try split) <;> simp
  | clrSend =>
    simp only [hph] at hs
    have hq : (Looper.send s.lp).1.pushed = s.lp.pushed ∧ (Looper.send s.lp).1.ran = s.lp.ran ∧ (Looper.send s.lp).1.cb = s.lp.cb ∧
        (Looper.send s.lp).1.io = s.lp.io := by
      unfold Looper.send
      split <;> (try split) <;> simp
    split at hs
    all_goals
      simp only [Option.some.injEq, Prod.mk.injEq] at hs
      obtain ⟨rfl, _⟩ := hs
      simpa [jobs, hph, Phase.inflight] using hq
  | clrQuit =>
    simp only [hph] at hs
    have hq : (Looper.quitSend s.lp).1.pushed = s.lp.pushed ∧ (Looper.quitSend s.lp).1.ran = s.lp.ran ∧ (Looper.quitSend s.lp).1.cb = s.lp.cb ∧
        (Looper.quitSend s.lp).1.io = s.lp.io := by
      unfold Looper.quitSend
      split <;> (try split) <;> simp
    split at hs
    all_goals
      simp only [Option.some.injEq, Prod.mk.injEq] at hs
      obtain ⟨rfl, _⟩ := hs
      simpa [jobs, hph, Phase.inflight] using hq
  | clrJoin =>
    simp only [hph] at hs
    split at hs
    · simp only [Option.some.injEq, Prod.mk.injEq] at hs; obtain ⟨rfl, _⟩ := hs; simp [jobs, hph, Phase.inflight]
    · split at hs
      · simp only [Option.some.injEq, Prod.mk.injEq] at hs; obtain ⟨rfl, _⟩ := hs; simp [jobs, hph, Phase.inflight]
      · cases hs

/-- A step of the thread: the jobs run stay a record of what was done to the file. -/
theorem io_ran {codecs : ι → Codec} {s s' : Inst ι} {o : Order} {r : Option (Out Unit)} {cb0 : Cb}
    (hs : step codecs s (.io o) = some (s', r))
    (h : Looper.execAll (exec codecs s.idx) cb0 s.lp.ran =
      if s.lp.io = .unwinding ∨ s.lp.io = .dead then Run.panic s.lp.cb else Run.done s.lp.cb) :
    s'.jobs = s.jobs ∧ s'.idx = s.idx ∧
      (Looper.execAll (exec codecs s.idx) cb0 s'.lp.ran =
        if s'.lp.io = .unwinding ∨ s'.lp.io = .dead then Run.panic s'.lp.cb else Run.done s'.lp.cb) ∧
      (s'.lp.ran = s.lp.ran ∨ ∃ j, s'.lp.ran = s.lp.ran ++ [(o, j)]) := by
  simp only [step] at hs
  split at hs
  · cases hs
  rename_i lp hlp
  simp only [Option.some.injEq, Prod.mk.injEq] at hs
  obtain ⟨rfl, rfl⟩ := hs
  unfold Looper.ioStep at hlp
  cases hio : s.lp.io with
  | recv =>
    simp only [hio] at hlp h
    split at hlp
    · injection hlp with hlp; subst hlp; simpa [jobs] using h
    · injection hlp with hlp; subst hlp; simpa [jobs] using h
    · split at hlp
      · cases hlp
      · injection hlp with hlp; subst hlp; simpa [jobs] using h
  | swap => simp only [hio] at hlp h; injection hlp with hlp; subst hlp; simpa [jobs] using h
  | unwinding => simp only [hio] at hlp h; injection hlp with hlp; subst hlp; simpa [jobs] using h
  | exited => simp [hio] at hlp
  | dead => simp [hio] at hlp
  | run =>
    simp only [hio] at hlp h
    cases hbuf : s.lp.buf with
    | nil => simp only [hbuf] at hlp; injection hlp with hlp; subst hlp; simpa [jobs] using h
    | cons j rest =>
      simp only [hbuf] at hlp
      have hd : Looper.execAll (exec codecs s.idx) cb0 s.lp.ran = .done s.lp.cb := by simpa using h
      split at hlp
      · rename_i cb' hx
        injection hlp with hlp; subst hlp
        refine ⟨by simp [jobs], rfl, ?_, .inr ⟨j, rfl⟩⟩
        simp only [Looper.execAll_append, hd, Run.andThen_done, Looper.execAll]
        have hx' : exec codecs s.idx o j s.lp.cb = .done cb' := hx
        rw [hx']
        simp
      · rename_i cb' hx
        injection hlp with hlp; subst hlp
        refine ⟨by simp [jobs], rfl, ?_, .inr ⟨j, rfl⟩⟩
        simp only [Looper.execAll_append, hd, Run.andThen_done, Looper.execAll]
        have hx' : exec codecs s.idx o j s.lp.cb = .panic cb' := hx
        rw [hx']
        simp [Run.andThen]

end Inst

/-- Any record the format can hold; a hash map yields each of its values once. -/
def Ev.Wf (E : Env ι) : Ev ι → Prop
  | .put k t bs => E.okB (Buffer.ofRaw k t bs)
  | .delete k => E.okB (Buffer.deleted k)
  | .io o => ∀ l, (o l).Perm l
  | _ => True

/-- Bytes a call has written. -/
def Ev.size (E : Env ι) : Ev ι → Nat
  | .put k t bs => E.recLen (Buffer.ofRaw k t bs)
  | .delete k => E.recLen (Buffer.deleted k)
  | _ => 0

/-- Bytes a history has written. -/
def evsSize (E : Env ι) (es : List (Ev ι)) : Nat := (es.map (Ev.size E)).sum

/-- Invariant of a store on which no call has failed; the thread may have died. -/
structure Gen (E : Env ι) (S0 : Store) (A P : Nat) (cs : List Mutation) (w : Nat) (s : Inst ι) : Prop where
  book : Book E.codecs s
  kvView : view s.kv = S0.run cs
  jobsOk : ∀ b dup, Job.write b dup ∈ s.jobs → E.okB b
  orders : ∀ p ∈ s.lp.ran, ∀ l, (p.1 l).Perm l
  ex : ∃ pre post A0 P0 content items, ∃ ws0 : WState, cs = pre ++ post ∧
    Track (S0.run pre) post (s.jobs.map Job.mutation) ∧
    SInv (E.codecs s.idx) E.okB E.recLen A0 P0 ws0 content items ∧ ws0.page = E.page ∧
    Store.empty.run (mutations items) = S0.run pre ∧
    A0 + jobsLen E.recLen s.jobs ≤ A + w ∧ P0 + s.jobs.length ≤ P + cs.length ∧
    Looper.execAll (exec E.codecs s.idx) { ws := ws0 } s.lp.ran =
      if s.lp.io = .unwinding ∨ s.lp.io = .dead then Run.panic s.lp.cb else Run.done s.lp.cb

namespace Inst

theorem ran_prefix_jobs {codecs : ι → Codec} {s : Inst ι} (h : Book codecs s) : s.lp.ran.map (·.2) <+: s.jobs := by
  obtain ⟨cb0, _, hinv⟩ := h.inv
  have := hinv.ran_prefix
  rw [h.late, List.append_nil] at this
  exact this.trans ⟨_, rfl⟩

theorem jobsLen_prefix (recLen : Buffer → Nat) {a b : List Job} (h : a <+: b) : jobsLen recLen a ≤ jobsLen recLen b := by
  obtain ⟨t, rfl⟩ := h
  rw [jobsLen_append]; omega

/-- The thread has ended without a panic: the file is what the jobs make of it. -/
theorem gen_exited {E : Env ι} {S0 : Store} {A P : Nat} {cs : List Mutation} {w : Nat} {s : Inst ι}
    (h : Gen E S0 A P cs w s) (hA : A + w + 8 < 2 ^ 64) (hP : E.posOk (P + cs.length)) (hex : s.lp.io = .exited) :
    s.jobs = s.lp.ran.map (·.2) ++ s.phase.inflight ∧
    ∃ content items, SInv (E.codecs s.idx) E.okB E.recLen (A + w) (P + cs.length) s.lp.cb.ws content items ∧
      s.lp.cb.ws.page = E.page ∧
      ((∀ j ∈ s.jobs, j.isWrite = true) → s.phase.inflight = [] → s.lp.cb.removed = false ∧
        Store.empty.run (mutations items) = S0.run cs) := by
  obtain ⟨hbook, _, hjok, hord, pre, post, A0, P0, content, items, ws0, hcs, htr, hs0, hpg, hS, hAw, hPc, hx⟩ := h
  have hpre := ran_prefix_jobs hbook
  obtain ⟨cb0, _, hinv⟩ := hbook.inv
  have hall : s.lp.ran.map (·.2) = s.lp.pushed := by
    have h2 := hinv.ran_prefix
    rw [hbook.late, List.append_nil] at h2
    exact h2.eq_of_length_le (hinv.exited_all hex).length_le
  have hjobs : s.jobs = s.lp.ran.map (·.2) ++ s.phase.inflight := by rw [hall]; rfl
  refine ⟨hjobs, ?_⟩
  have hlen := jobsLen_prefix E.recLen hpre
  have hl2 := hpre.length_le
  simp only [List.length_map] at hl2
  rw [hex] at hx
  obtain ⟨c', i', h1, h2, h3⟩ := execAll_sized (E.lawful s.idx) s.lp.ran (cb := { ws := ws0 }) hs0
    (fun b dup hb => hjok b dup (hpre.subset hb)) hord (by omega)
    ((E.lawful s.idx).posOk_mono _ _ hP (by omega)) (show Looper.execAll (exec E.codecs s.idx) { ws := ws0 } s.lp.ran = .done s.lp.cb by simpa using hx)
  refine ⟨c', i', ⟨h1.toValid, h1.quota, h1.bufs, ?_, ?_, ?_⟩, by rw [h2.page]; exact hpg, ?_⟩
  · have := h1.size; omega
  · have := h1.total; omega
  · have := h1.count; omega
  · intro hw hin
    obtain ⟨g1, g2⟩ := h3 fun p hp => hw _ (hpre.subset (List.mem_map_of_mem hp))
    refine ⟨g1, ?_⟩
    rw [g2, hS, hcs, run_append, htr.run_eq, hjobs, hin, List.append_nil, List.map_map]
    rfl

theorem gen_open {E : Env ι} {i : ι} {A P : Nat} {file : Bytes} {s : Inst ι} {content : Bytes} {items : List (Option Buffer)}
    (ho : openAt E.codecs i E.page file = some s)
    (hs : SInv (E.codecs i) E.okB E.recLen A P s.lp.cb.ws content items) (hpg : s.lp.cb.ws.page = E.page)
    (hv : view s.kv = Store.empty.run (mutations items)) : Gen E (view s.kv) A P [] 0 s := by
  have hb := book_open ho
  have hidx : s.idx = i ∧ s.lp = Looper.new s.lp.cb ∧ s.phase = .idle ∧ s.lp.cb.removed = false := by
    unfold openAt at ho
    split at ho
    · cases ho
    · injection ho with ho; subst ho; exact ⟨rfl, rfl, rfl, rfl⟩
  obtain ⟨h1, h2, h3, h4⟩ := hidx
  have hr : s.lp.ran = [] := by rw [h2]; rfl
  have hp : s.lp.pushed = [] := by rw [h2]; rfl
  have hio : s.lp.io = .recv := by rw [h2]; rfl
  have hj : s.jobs = [] := by simp [jobs, hp, h3, Phase.inflight]
  refine ⟨hb, rfl, by simp [hj], by simp [hr], [], [], A, P, content, items, s.lp.cb.ws, rfl, by rw [hj]; exact .nil,
    by rw [h1]; exact hs, hpg, by rw [hv]; rfl, by simp [hj, jobsLen], by simp [hj], ?_⟩
  rw [hr, hio]
  simp only [Looper.execAll]
  have : s.lp.cb = { ws := s.lp.cb.ws } := by
    cases hcb : s.lp.cb
    rw [hcb] at h4
    simp at h4
    simp [h4]
  simp [← this]

theorem gen_step {E : Env ι} {S0 : Store} {A P : Nat} {cs : List Mutation} {w : Nat} {s s' : Inst ι} {e : Ev ι}
    {r : Option (Out Unit)} (h : Gen E S0 A P cs w s) (he : e.Wf E) (hA : A + w + 8 < 2 ^ 64) (hP : E.posOk (P + cs.length))
    (hs : step E.codecs s e = some (s', r)) (hr : ∀ x, r = some x → x = .ok ()) :
    Gen E S0 A P (cs ++ e.call?.toList) (w + e.size E) s' := by
  have h0 := h
  obtain ⟨hbook, hkv, hjok, hord, pre, post, A0, P0, content, items, ws0, hcs, htr, hs0, hpg, hS, hAw, hPc, hx⟩ := h
  obtain ⟨hbook', hview⟩ := book_step hbook hs hr
  have hkv' : view s'.kv = S0.run (cs ++ e.call?.toList) := by rw [hview, hkv, run_append]
  cases e with
  | put k t bs =>
    simp only [step] at hs
    split at hs
    · cases hs
    rename_i hg
    have hidle : s.phase = .idle := by cases hp : s.phase <;> simp [hp] at hg ⊢
    have htok : tokenOk t = true := by simpa [hidle] using hg
    simp only [hbook.poisoned, hbook.valid, hidle, Phase.clearing, Bool.false_eq_true, if_false, Bool.not_false,
      Bool.true_eq_false, Option.some.injEq, Prod.mk.injEq] at hs
    obtain ⟨rfl, rfl⟩ := hs
    refine ⟨hbook', hkv', ?_, hord, pre, post ++ [.put k ⟨t, bs⟩], A0, P0, content, items, ws0, by simp [hcs, Ev.call?], ?_,
      hs0, hpg, hS, ?_, ?_, hx⟩
    · intro b dup hj
      simp only [jobs, Phase.inflight, List.mem_append, List.mem_singleton] at hj
      rcases hj with hj | hj
      · exact hjok b dup (by simp [jobs, hj])
      · injection hj with h1 h2; subst h1; exact he
    · have := htr.both (.put k ⟨t, bs⟩) (by simp)
      simp only [jobs, hidle, Phase.inflight, List.append_nil] at this
      simp only [jobs, Phase.inflight, List.map_append, List.map_cons, List.map_nil, Job.mutation, mutation_ofRaw htok]
      exact this
    · simp only [jobs, hidle, Phase.inflight, jobsLen, Ev.size, List.map_append, List.sum_append, List.map_cons, List.map_nil,
        List.sum_cons, List.sum_nil, jobLen, Nat.add_zero] at hAw ⊢
      omega
    · simp only [jobs, Phase.inflight, hidle, Ev.call?, Option.toList, List.length_append, List.length_cons, List.length_nil] at hPc ⊢
      omega
  | delete k =>
    simp only [step] at hs
    split at hs
    · cases hs
    rename_i hg
    have hidle : s.phase = .idle := by simpa using hg
    simp only [hbook.poisoned, hbook.valid, hidle, Phase.clearing, Bool.false_eq_true, if_false, Bool.not_false,
      Bool.true_eq_false] at hs
    split at hs
    · rename_i hn
      simp only [Option.some.injEq, Prod.mk.injEq] at hs
      obtain ⟨rfl, rfl⟩ := hs
      refine ⟨hbook', hkv', hjok, hord, pre, post ++ [.delete k], A0, P0, content, items, ws0, by simp [hcs, Ev.call?], ?_,
        hs0, hpg, hS, by omega, by simp [Ev.call?]; omega, hx⟩
      refine htr.skip _ ?_
      rw [← run_append, ← hcs, ← hkv, view]
      simpa using hn
    · rename_i hn
      simp only [Option.some.injEq, Prod.mk.injEq] at hs
      obtain ⟨rfl, rfl⟩ := hs
      refine ⟨hbook', hkv', ?_, hord, pre, post ++ [.delete k], A0, P0, content, items, ws0, by simp [hcs, Ev.call?], ?_,
        hs0, hpg, hS, ?_, ?_, hx⟩
      · intro b dup hj
        simp only [jobs, Phase.inflight, List.mem_append, List.mem_singleton] at hj
        rcases hj with hj | hj
        · exact hjok b dup (by simp [jobs, hj])
        · injection hj with h1 h2; subst h1; exact he
      · have := htr.both (.delete k) (by
          intro k' hk'
          injection hk' with hk'
          subst hk'
          rw [← run_append, ← hcs, ← hkv, view]
          simpa using hn)
        simp only [jobs, hidle, Phase.inflight, List.append_nil] at this
        simp only [jobs, Phase.inflight, List.map_append, List.map_cons, List.map_nil, Job.mutation, mutation_deleted]
        exact this
      · simp only [jobs, hidle, Phase.inflight, jobsLen, Ev.size, List.map_append, List.sum_append, List.map_cons, List.map_nil,
          List.sum_cons, List.sum_nil, jobLen, Nat.add_zero] at hAw ⊢
        omega
      · simp only [jobs, Phase.inflight, hidle, Ev.call?, Option.toList, List.length_append, List.length_cons, List.length_nil] at hPc ⊢
        omega
  | clear =>
    simp only [step] at hs
    split at hs
    · cases hs
    rename_i hg
    have hidle : s.phase = .idle := by simpa using hg
    simp only [hbook.poisoned, hbook.valid, hidle, Phase.clearing, Bool.false_eq_true, if_false, Bool.not_false,
      Bool.true_eq_false, Option.some.injEq, Prod.mk.injEq] at hs
    obtain ⟨rfl, rfl⟩ := hs
    refine ⟨hbook', hkv', ?_, hord, pre, post ++ [.clear], A0, P0, content, items, ws0, by simp [hcs, Ev.call?], ?_,
      hs0, hpg, hS, ?_, ?_, hx⟩
    · intro b dup hj
      simp only [jobs, Phase.inflight, List.mem_append, List.mem_singleton] at hj
      rcases hj with hj | hj
      · exact hjok b dup (by simp [jobs, hj])
      · cases hj
    · have := htr.both .clear (by simp)
      simp only [jobs, hidle, Phase.inflight, List.append_nil] at this
      simp only [jobs, Phase.inflight, List.map_append, List.map_cons, List.map_nil, Job.mutation]
      exact this
    · simp only [jobs, hidle, Phase.inflight, jobsLen, Ev.size, List.map_append, List.sum_append, List.map_cons, List.map_nil,
        List.sum_cons, List.sum_nil, jobLen, Nat.add_zero] at hAw ⊢
      omega
    · simp only [jobs, Phase.inflight, hidle, Ev.call?, Option.toList, List.length_append, List.length_cons, List.length_nil] at hPc ⊢
      omega
  | drop =>
    simp only [step] at hs
    split at hs
    · cases hs
    rename_i hg
    have hidle : s.phase = .idle := by simpa using hg
    simp only [Option.some.injEq, Prod.mk.injEq] at hs
    obtain ⟨rfl, rfl⟩ := hs
    have hj : jobs { s with phase := .closed, lp := Looper.dropSender s.lp } = s.jobs := by
      simp [jobs, hidle, Phase.inflight, Looper.dropSender]
    exact ⟨hbook', hkv', by rw [hj]; exact hjok, hord, pre, post, A0, P0, content, items, ws0, by simpa [Ev.call?] using hcs,
      by rw [hj]; exact htr, hs0, hpg, hS, by rw [hj]; exact hAw, by rw [hj]; simpa [Ev.call?] using hPc, hx⟩
  | io o =>
    have hcall : cs ++ (Ev.io o : Ev ι).call?.toList = cs := by simp [Ev.call?]
    rw [hcall] at hkv' ⊢
    have hkeep : s'.kv = s.kv := by
      simp only [step] at hs
      split at hs
      · cases hs
      · simp only [Option.some.injEq, Prod.mk.injEq] at hs; obtain ⟨rfl, _⟩ := hs; rfl
    obtain ⟨hj, hi, hx', hran⟩ := io_ran hs hx
    refine ⟨hbook', hkv', by rw [hj]; exact hjok, ?_, pre, post, A0, P0, content, items, ws0, hcs, by rw [hj]; exact htr,
      by rw [hi]; exact hs0, hpg, hS, by rw [hj]; exact hAw, by rw [hj]; exact hPc, by rw [hi]; exact hx'⟩
    rcases hran with hran | ⟨j, hran⟩
    · rw [hran]; exact hord
    · intro p hp
      rw [hran] at hp
      rcases List.mem_append.1 hp with hp | hp
      · exact hord p hp
      · simp at hp; subst hp; exact he
  | api i =>
    have hcall : cs ++ (Ev.api i : Ev ι).call?.toList = cs := by simp [Ev.call?]
    rw [hcall] at hkv' ⊢
    by_cases hph : s.phase = .clrOpen
    · obtain ⟨hex, hjd⟩ := hbook.joined hph
      have hclr : s.phase.clearing = true := by simp [hph, Phase.clearing]
      obtain ⟨hjobs, c1, i1, hs1, hpage, _⟩ := gen_exited h0 hA hP hex
      have hremoved : s.lp.cb.removed = true := by
        rw [hbook.removed]
        obtain ⟨W, hW, _⟩ := hbook.jobsC hclr
        have hin : s.phase.inflight = [] := by rw [hph]; rfl
        rw [hin, List.append_nil] at hjobs
        rw [← hjobs, hW]; simp
      have hdk : s.disk = [] := by simp [disk, hremoved]
      have hempty : S0.run cs = Store.empty := by rw [← hkv, hbook.kvClear hclr, view_nil]
      simp only [step, hph] at hs
      rw [hdk, hpage, hs1.usz, hs1.quota, hremoved] at hs
      simp only [if_true] at hs
      obtain ⟨s2, ho2, hd2, _⟩ := dinv_open (E := E) (i := i) (K := 0) (GoodFile.empty (E := E) (c := E.codecs i) (K := 0))
      rw [ho2] at hs
      simp only [hjd, if_true, Option.some.injEq, Prod.mk.injEq] at hs
      obtain ⟨rfl, rfl⟩ := hs
      have hvo : view s2.kv = Store.empty := hd2.kvView
      have hg := gen_open (A := 0) (P := 0) (content := []) (items := []) ho2 (by
          unfold openAt at ho2
          rw [openStore_nil _ _ E.page8] at ho2
          injection ho2 with ho2; subst ho2
          exact ⟨⟨rfl, by simp [Looper.new, zeros], ⟨by simp, zeros (E.page - 8), zeros_eq E.page E.page8⟩, .nil _, rfl⟩, rfl,
            by simp, by simp, by simp [recSum, sumLen], by simp⟩)
        (by unfold openAt at ho2
            rw [openStore_nil _ _ E.page8] at ho2
            injection ho2 with ho2; subst ho2; rfl) (by rw [hvo]; rfl)
      obtain ⟨_, _, q1, q2, pre1, post1, A1, P1, content1, items1, ws1, e1, e2, e3, e4, e5, e6, e7, e8⟩ := hg
      have hnil : pre1 = [] ∧ post1 = [] := by simpa using e1.symm
      obtain ⟨rfl, rfl⟩ := hnil
      rw [hvo] at e2 e5
      refine ⟨hbook', hkv', q1, q2, cs, [], A1, P1, content1, items1, ws1, by simp, by rw [hempty]; exact e2, e3, e4,
        by rw [hempty]; exact e5, ?_, ?_, e8⟩
      · omega
      · simp only [List.length_nil] at e7; omega
    · obtain ⟨hj, hran, hcb, hio, hi⟩ := api_quiet hbook hs hph
      exact ⟨hbook', hkv', by rw [hj]; exact hjok, by rw [hran]; exact hord, pre, post, A0, P0, content, items, ws0, hcs,
        by rw [hj]; exact htr, by rw [hi]; exact hs0, hpg, hS, by rw [hj]; exact hAw, by rw [hj]; exact hPc,
        by rw [hi, hran, hcb, hio]; exact hx⟩

theorem gen_run {E : Env ι} {S0 : Store} {A P : Nat} (es : List (Ev ι)) {cs : List Mutation} {w : Nat} {s s' : Inst ι}
    {rs : List (Out Unit)} (h : Gen E S0 A P cs w s) (he : ∀ e ∈ es, e.Wf E) (hA : A + w + evsSize E es + 8 < 2 ^ 64)
    (hP : E.posOk (P + cs.length + (calls es).length)) (hs : run E.codecs s es = some (s', rs)) (hr : ∀ x ∈ rs, x = .ok ()) :
    Gen E S0 A P (cs ++ calls es) (w + evsSize E es) s' := by
  induction es generalizing s rs cs w with
  | nil =>
    simp only [run, Option.some.injEq, Prod.mk.injEq] at hs
    obtain ⟨rfl, rfl⟩ := hs
    simpa [evsSize, calls] using h
  | cons e es ih =>
    unfold run at hs
    split at hs
    · cases hs
    · rename_i s1 r hstep
      split at hs
      · cases hs
      · rename_i s2 rs2 hrun
        simp only [Option.some.injEq, Prod.mk.injEq] at hs
        obtain ⟨rfl, rfl⟩ := hs
        rw [calls_cons] at hP ⊢
        have hsz : evsSize E (e :: es) = e.size E + evsSize E es := by simp [evsSize]
        rw [hsz] at hA ⊢
        simp only [List.length_append] at hP
        have h1 := gen_step h (he e List.mem_cons_self) (by omega) ((E.lawful s.idx).posOk_mono _ _ hP (by omega)) hstep
          (fun x hx => hr x (by simp [hx]))
        have h2 := ih h1 (fun e' he' => he e' (List.mem_cons_of_mem _ he')) (by omega)
          (by simp only [List.length_append]; rw [show P + (cs.length + e.call?.toList.length) + (calls es).length =
                P + cs.length + (e.call?.toList.length + (calls es).length) by omega]; exact hP) hrun
          (fun x hx => hr x (by simp [hx]))
        rw [← Nat.add_assoc, ← List.append_assoc]
        exact h2

end Inst
end Mmkv
