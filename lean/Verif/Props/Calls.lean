import Verif.Props.Durability
/-!
# C08, C09, C45 in terms of the calls

`Props/Looper.lean` proves them of the queue and its thread, for jobs of any kind.  Here: what the background thread of a store does,
against the calls made on the store.
-/

namespace Mmkv
open Spec

/-- What there is to write of a series of calls on a map: each put, each `clear_data`, and each delete of a key that is there. -/
def toWrite (S : Store) : List Mutation → List Mutation
  | [] => []
  | .delete k :: ms => if S k = none then toWrite S ms else .delete k :: toWrite (S.apply (.delete k)) ms
  | m :: ms => m :: toWrite (S.apply m) ms

namespace Inst
variable {ι : Type}

/-- The mutation that an event carries out on the file: a step of the background thread when it runs a job (src/core/io_looper.rs:126-130). -/
def doing (s : Inst ι) : Ev ι → Option Mutation
  | .io _ => if s.lp.io = .run then s.lp.buf.head?.map Job.mutation else none
  | _ => none

/-- All that the background threads of a store (`clear_data` starts a new one) carry out in a history, in order. -/
def performed (codecs : ι → Codec) (s : Inst ι) : List (Ev ι) → List Mutation
  | [] => []
  | e :: es => (s.doing e).toList ++ match step codecs s e with
    | some (s', _) => performed codecs s' es
    | none => []

/-! ### Proofs -/

theorem toWrite_append (S : Store) (a b : List Mutation) : toWrite S (a ++ b) = toWrite S a ++ toWrite (S.run a) b := by
  induction a generalizing S with
  | nil => rfl
  | cons m a ih =>
    cases m with
    | put k e => simp only [List.cons_append, toWrite, ih, Store.run, List.foldl_cons]
    | clear => simp only [List.cons_append, toWrite, ih, Store.run, List.foldl_cons]
    | delete k =>
      simp only [List.cons_append, toWrite]
      by_cases h : S k = none
      · rw [if_pos h, if_pos h, ih]
        simp only [Store.run, List.foldl_cons, apply_delete_absent h]
      · rw [if_neg h, if_neg h, ih]
        simp only [List.cons_append, Store.run, List.foldl_cons]

theorem _root_.Mmkv.Book.ran_prefix {codecs : ι → Codec} {s : Inst ι} (h : Book codecs s) : s.lp.ran.map (·.2) <+: s.jobs := by
  obtain ⟨_, _, hinv⟩ := h.inv
  have hp := hinv.ran_prefix
  rw [h.late, List.append_nil] at hp
  exact hp.trans ⟨_, rfl⟩

theorem _root_.Mmkv.Book.ran_all {codecs : ι → Codec} {s : Inst ι} (h : Book codecs s) (hx : s.lp.io = .exited) : s.lp.ran.map (·.2) = s.lp.pushed := by
  obtain ⟨_, _, hinv⟩ := h.inv
  have hp := hinv.ran_prefix
  rw [h.late, List.append_nil] at hp
  have hq := hinv.exited_all hx
  exact hp.eq_of_length (Nat.le_antisymm hp.length_le hq.length_le)

theorem run_split {codecs : ι → Codec} (a b : List (Ev ι)) : ∀ {s s' : Inst ι} {rs : List (Out Unit)}, run codecs s (a ++ b) = some (s', rs) →
    ∃ s1 rs1 rs2, run codecs s a = some (s1, rs1) ∧ run codecs s1 b = some (s', rs2) ∧ rs = rs1 ++ rs2 := by
  induction a with
  | nil => intro s s' rs h; exact ⟨s, [], rs, rfl, h, rfl⟩
  | cons e a ih =>
    intro s s' rs h
    rw [List.cons_append] at h
    simp only [run] at h ⊢
    split at h
    · cases h
    rename_i s1 r hs
    split at h
    · cases h
    rename_i s2 rs2 h2
    simp only [Option.some.injEq, Prod.mk.injEq] at h
    obtain ⟨rfl, rfl⟩ := h
    obtain ⟨s3, rs3, rs4, h3, h4, rfl⟩ := ih h2
    exact ⟨s3, r.toList ++ rs3, rs4, by simp [h3], h4, by simp⟩

/-- One event: what is to be done, and what is done. -/
theorem calls_step {codecs : ι → Codec} {s s' : Inst ι} {e : Ev ι} {r : Option (Out Unit)} (h : Book codecs s)
    (hs : step codecs s e = some (s', r)) (hr : ∀ x, r = some x → x = .ok ()) :
    (s'.jobs.map Job.mutation = s.jobs.map Job.mutation ++ toWrite (view s.kv) e.call?.toList ∧
      s'.lp.ran.map (fun x => x.2.mutation) = s.lp.ran.map (fun x => x.2.mutation) ++ (s.doing e).toList) ∨
    (s.phase = .clrOpen ∧ e.call? = none ∧ s.doing e = none ∧ s'.jobs = [] ∧ s'.lp.ran = [] ∧ s.lp.ran.map (·.2) = s.jobs) := by
  cases e with
  | put k t bs =>
    left
    simp only [step] at hs
    split at hs
    · cases hs
    rename_i hg
    have hidle : s.phase = .idle := by
      cases hp : s.phase <;> simp [hp] at hg ⊢
    have htok : tokenOk t = true := by simpa [hidle] using hg
    have hvalid := h.valid
    simp only [h.poisoned, Bool.false_eq_true, if_false] at hs
    simp only [hvalid, hidle, Phase.clearing, Bool.not_false, Bool.true_eq_false, if_false, Option.some.injEq,
      Prod.mk.injEq] at hs
    obtain ⟨rfl, rfl⟩ := hs
    refine ⟨?_, by simp [doing]⟩
    simp [jobs, hidle, Phase.inflight, Ev.call?, toWrite, Job.mutation, mutation_ofRaw htok]
  | delete k =>
    left
    simp only [step] at hs
    split at hs
    · cases hs
    rename_i hg
    have hidle : s.phase = .idle := by simpa using hg
    have hvalid := h.valid
    simp only [h.poisoned, Bool.false_eq_true, if_false] at hs
    simp only [hvalid, hidle, Phase.clearing, Bool.not_false, Bool.true_eq_false, if_false] at hs
    split at hs
    · rename_i hn
      simp only [Option.some.injEq, Prod.mk.injEq] at hs
      obtain ⟨rfl, rfl⟩ := hs
      have : view s.kv k = none := by
        simp only [Option.isNone_iff_eq_none] at hn
        simp [view, hn]
      refine ⟨?_, by simp [doing]⟩
      simp [Ev.call?, toWrite, this]
    · rename_i hn
      simp only [Option.some.injEq, Prod.mk.injEq] at hs
      obtain ⟨rfl, rfl⟩ := hs
      have : view s.kv k ≠ none := by
        intro hc
        apply hn
        simp only [Option.isNone_iff_eq_none]
        cases hk : s.kv.get k with
        | none => rfl
        | some b => simp [view, hk] at hc
      refine ⟨?_, by simp [doing]⟩
      simp [jobs, hidle, Phase.inflight, Ev.call?, toWrite, Job.mutation, mutation_deleted, this]
  | clear =>
    left
    simp only [step] at hs
    split at hs
    · cases hs
    rename_i hg
    have hidle : s.phase = .idle := by simpa using hg
    have hvalid := h.valid
    simp only [h.poisoned, Bool.false_eq_true, if_false] at hs
    simp only [hvalid, hidle, Phase.clearing, Bool.not_false, Bool.true_eq_false, if_false, Option.some.injEq,
      Prod.mk.injEq] at hs
    obtain ⟨rfl, rfl⟩ := hs
    refine ⟨?_, by simp [doing]⟩
    simp [jobs, hidle, Phase.inflight, Ev.call?, toWrite, Job.mutation]
  | drop =>
    left
    simp only [step] at hs
    split at hs
    · cases hs
    rename_i hg
    have hidle : s.phase = .idle := by simpa using hg
    simp only [Option.some.injEq, Prod.mk.injEq] at hs
    obtain ⟨rfl, rfl⟩ := hs
    exact ⟨by simp [jobs, hidle, Phase.inflight, Looper.dropSender, Ev.call?, toWrite], by simp [doing, Looper.dropSender]⟩
  | io o =>
    left
    simp only [step] at hs
    split at hs
    · cases hs
    rename_i lp hlp
    simp only [Option.some.injEq, Prod.mk.injEq] at hs
    obtain ⟨rfl, rfl⟩ := hs
    unfold Looper.ioStep at hlp
    cases hio : s.lp.io with
    | recv =>
      simp only [hio] at hlp
      repeat' split at hlp
      all_goals first
        | cases hlp; done
        | (injection hlp with hlp; subst hlp; exact ⟨by simp [jobs, Ev.call?, toWrite], by simp [doing, hio]⟩)
    | swap =>
      simp only [hio, Option.some.injEq] at hlp
      subst hlp
      exact ⟨by simp [jobs, Ev.call?, toWrite], by simp [doing, hio]⟩
    | run =>
      simp only [hio] at hlp
      split at hlp
      · rename_i hb
        injection hlp with hlp; subst hlp
        exact ⟨by simp [jobs, Ev.call?, toWrite], by simp [doing, hb]⟩
      · rename_i j rest hb
        split at hlp
        · injection hlp with hlp; subst hlp
          exact ⟨by simp [jobs, Ev.call?, toWrite], by simp [doing, hio, hb]⟩
        · injection hlp with hlp; subst hlp
          exact ⟨by simp [jobs, Ev.call?, toWrite], by simp [doing, hio, hb]⟩
    | unwinding =>
      simp only [hio, Option.some.injEq] at hlp
      subst hlp
      exact ⟨by simp [jobs, Ev.call?, toWrite], by simp [doing, hio]⟩
    | exited => simp only [hio] at hlp; cases hlp
    | dead => simp only [hio] at hlp; cases hlp
  | api i =>
    have hc : (Ev.api i : Ev ι).call? = none := rfl
    have hd : s.doing (.api i) = none := rfl
    simp only [step] at hs
    cases hp : s.phase with
    | idle => simp only [hp] at hs; cases hs
    | closed => simp only [hp] at hs; cases hs
    | push j =>
      left
      simp only [hp, Option.some.injEq, Prod.mk.injEq] at hs
      obtain ⟨rfl, _⟩ := hs
      have hsd : s.lp.sender = true := by rw [h.sender, hp]; rfl
      simp [jobs, hp, Phase.inflight, Looper.push, hsd, Ev.call?, toWrite, doing]
    | send =>
      left
      simp only [hp, Option.some.injEq, Prod.mk.injEq] at hs
      obtain ⟨rfl, _⟩ := hs
      have : (Looper.send s.lp).1.pushed = s.lp.pushed ∧ (Looper.send s.lp).1.ran = s.lp.ran := by
        unfold Looper.send; split
        · split <;> exact ⟨rfl, rfl⟩
        · exact ⟨rfl, rfl⟩
      simp [jobs, hp, Phase.inflight, this, Ev.call?, toWrite, doing]
    | clrPush =>
      left
      simp only [hp, Option.some.injEq, Prod.mk.injEq] at hs
      obtain ⟨rfl, _⟩ := hs
      have hsd : s.lp.sender = true := by rw [h.sender, hp]; rfl
      simp [jobs, hp, Phase.inflight, Looper.push, hsd, Ev.call?, toWrite, doing]
    | clrSend =>
      left
      have hq : (Looper.send s.lp).1.pushed = s.lp.pushed ∧ (Looper.send s.lp).1.ran = s.lp.ran := by
        unfold Looper.send; split
        · split <;> exact ⟨rfl, rfl⟩
        · exact ⟨rfl, rfl⟩
      simp only [hp] at hs
      split at hs <;> simp only [Option.some.injEq, Prod.mk.injEq] at hs <;> obtain ⟨rfl, _⟩ := hs <;>
        simp [jobs, hp, Phase.inflight, hq, Ev.call?, toWrite, doing]
    | clrQuit =>
      left
      have hq : (Looper.quitSend s.lp).1.pushed = s.lp.pushed ∧ (Looper.quitSend s.lp).1.ran = s.lp.ran := by
        unfold Looper.quitSend; split
        · split <;> exact ⟨rfl, rfl⟩
        · exact ⟨rfl, rfl⟩
      simp only [hp] at hs
      split at hs <;> simp only [Option.some.injEq, Prod.mk.injEq] at hs <;> obtain ⟨rfl, _⟩ := hs <;>
        simp [jobs, hp, Phase.inflight, hq, Ev.call?, toWrite, doing]
    | clrJoin =>
      left
      simp only [hp] at hs
      split at hs
      · simp only [Option.some.injEq, Prod.mk.injEq] at hs
        obtain ⟨rfl, _⟩ := hs
        simp [jobs, hp, Phase.inflight, Ev.call?, toWrite, doing]
      · split at hs
        · simp only [Option.some.injEq, Prod.mk.injEq] at hs
          obtain ⟨rfl, _⟩ := hs
          simp [jobs, hp, Phase.inflight, Ev.call?, toWrite, doing]
        · cases hs
    | clrOpen =>
      right
      obtain ⟨hex, hjd⟩ := h.joined hp
      have hall := h.ran_all hex
      simp only [hp] at hs
      split at hs
      · simp only [Option.some.injEq, Prod.mk.injEq] at hs
        have := hr _ hs.2.symm
        simp at this
      · rename_i s1 hopen
        simp only [hjd, if_true, Option.some.injEq, Prod.mk.injEq] at hs
        obtain ⟨rfl, rfl⟩ := hs
        refine ⟨rfl, rfl, rfl, ?_, ?_, by rw [hall]; simp [jobs, hp, Phase.inflight]⟩
        all_goals
          unfold openAt at hopen
          split at hopen
          · cases hopen
          · injection hopen with hopen
            subst hopen
            simp [jobs, Looper.new, Phase.inflight]

/-- What is to be done is what is done, and what is still queued or about to be. -/
theorem calls_run {codecs : ι → Codec} (es : List (Ev ι)) : ∀ {s s' : Inst ι} {rs : List (Out Unit)}, Book codecs s →
    run codecs s es = some (s', rs) → (∀ x ∈ rs, x = .ok ()) →
    ∃ past, s.jobs.map Job.mutation ++ toWrite (view s.kv) (calls es) = past ++ s'.jobs.map Job.mutation ∧
      s.lp.ran.map (fun x => x.2.mutation) ++ performed codecs s es = past ++ s'.lp.ran.map (fun x => x.2.mutation) := by
  induction es with
  | nil =>
    intro s s' rs _ hs _
    simp only [run, Option.some.injEq, Prod.mk.injEq] at hs
    obtain ⟨rfl, rfl⟩ := hs
    exact ⟨[], by simp [toWrite], by simp [performed]⟩
  | cons e es ih =>
    intro s s' rs h hs hr
    unfold run at hs
    split at hs
    · cases hs
    rename_i s1 r hstep
    split at hs
    · cases hs
    rename_i s2 rs2 hrun
    simp only [Option.some.injEq, Prod.mk.injEq] at hs
    obtain ⟨rfl, rfl⟩ := hs
    have hr1 : ∀ x, r = some x → x = .ok () := by intro x hx; exact hr x (by simp [hx])
    obtain ⟨hb, hv⟩ := book_step h hstep hr1
    obtain ⟨past, i1, i2⟩ := ih hb hrun (fun x hx => hr x (by simp [hx]))
    rw [calls_cons, toWrite_append, ← hv]
    simp only [performed, hstep]
    rcases calls_step h hstep hr1 with ⟨h1, h2⟩ | ⟨_, h2, h3, h4, h5, h6⟩
    · refine ⟨past, ?_, ?_⟩
      · rw [← List.append_assoc, ← h1]; exact i1
      · rw [← List.append_assoc, ← h2]; exact i2
    · rw [h4] at i1
      rw [h5] at i2
      have h6' : s.lp.ran.map (fun x => x.2.mutation) = s.jobs.map Job.mutation := by rw [← h6, List.map_map]; rfl
      rw [h2, h3]
      simp only [Option.toList_none, toWrite, List.nil_append, List.map_nil] at i1 i2 ⊢
      refine ⟨s.jobs.map Job.mutation ++ past, ?_, ?_⟩
      · rw [i1, List.append_assoc]
      · rw [i2, h6', List.append_assoc]

section
variable {codecs : ι → Codec} {i : ι} {page : Nat} {file : Bytes} {u : Nat} {q : Option Nat}
  {s0 s : Inst ι} {S0 : Store} {es : List (Ev ι)} {rs : List (Out Unit)}

theorem calls_open (hopen : openAt codecs i page file u q = some s0) (h0 : s0.Shows S0)
    (hrun : run codecs s0 es = some (s, rs)) (hok : ∀ r ∈ rs, r = .ok ()) :
    Book codecs s ∧ ∃ past, toWrite S0 (calls es) = past ++ s.jobs.map Job.mutation ∧
      performed codecs s0 es = past ++ s.lp.ran.map (fun x => x.2.mutation) := by
  have hv := (shows_open hopen).1 h0
  have hb := book_open hopen
  obtain ⟨past, h1, h2⟩ := calls_run es hb hrun hok
  have e1 : s0.jobs = [] ∧ s0.lp.ran = [] := by
    unfold openAt at hopen
    split at hopen
    · cases hopen
    · injection hopen with hopen
      subst hopen
      simp [jobs, Looper.new, Phase.inflight]
  rw [e1.1, hv] at h1
  rw [e1.2] at h2
  exact ⟨(book_run es hb hrun hok).1, past, by simpa using h1, by simpa using h2⟩

/-- **C08** of calls: as long as no call fails, what the background thread has done to the file is, at every moment of every history, a first
part of what the calls so far ask for - each put, each delete of a key that was there and each `clear_data`, once each, in the order in which
the calls took the lock. -/
theorem C08_calls (hopen : openAt codecs i page file u q = some s0) (h0 : s0.Shows S0)
    (hrun : run codecs s0 es = some (s, rs)) (hok : ∀ r ∈ rs, r = .ok ()) :
    performed codecs s0 es <+: toWrite S0 (calls es) := by
  obtain ⟨hb, past, h1, h2⟩ := calls_open hopen h0 hrun hok
  rw [h1, h2]
  obtain ⟨t, ht⟩ := hb.ran_prefix
  refine ⟨t.map Job.mutation, ?_⟩
  rw [List.append_assoc, ← ht, List.map_append, List.map_map]
  rfl

/-- **C09** of calls: when the drop of the last handle has returned without a panic, all that the calls ask for has been done. -/
theorem C09_calls (hopen : openAt codecs i page file u q = some s0) (h0 : s0.Shows S0)
    (hrun : run codecs s0 es = some (s, rs)) (hok : ∀ r ∈ rs, r = .ok ()) (hclosed : s.closedOk) :
    performed codecs s0 es = toWrite S0 (calls es) := by
  obtain ⟨hb, past, h1, h2⟩ := calls_open hopen h0 hrun hok
  rw [h1, h2]
  have := hb.ran_all hclosed.2
  have hj : s.jobs = s.lp.pushed := by simp [jobs, hclosed.1, Phase.inflight]
  rw [hj, ← this, List.map_map]
  rfl

/-- After a `clear_data` until it returns, nothing is queued on the new thread. -/
theorem clears_run (es : List (Ev ι)) : ∀ {s s' : Inst ι} {rs : List (Out Unit)}, Book codecs s →
    (s.phase.clearing = true ∨ (s.jobs = [] ∧ s.phase ≠ .send)) →
    run codecs s es = some (s', rs) → (∀ x ∈ rs, x = .ok ()) → calls es = [] →
    s'.phase.clearing = true ∨ (s'.jobs = [] ∧ s'.phase ≠ .send) := by
  induction es with
  | nil =>
    intro s s' rs _ h hs _ _
    simp only [run, Option.some.injEq, Prod.mk.injEq] at hs
    obtain ⟨rfl, rfl⟩ := hs
    exact h
  | cons e es ih =>
    intro s s' rs hb h hs hr hcalls
    unfold run at hs
    split at hs
    · cases hs
    rename_i s1 r hstep
    split at hs
    · cases hs
    rename_i s2 rs2 hrun
    simp only [Option.some.injEq, Prod.mk.injEq] at hs
    obtain ⟨rfl, rfl⟩ := hs
    have hr1 : ∀ x, r = some x → x = .ok () := by intro x hx; exact hr x (by simp [hx])
    obtain ⟨hb1, _⟩ := book_step hb hstep hr1
    rw [calls_cons, List.append_eq_nil_iff] at hcalls
    have hnc : e.call? = none := by
      have := hcalls.1
      cases he : e.call? with
      | none => rfl
      | some m => rw [he] at this; cases this
    refine ih hb1 ?_ hrun (fun x hx => hr x (by simp [hx])) hcalls.2
    have hj := calls_step hb hstep hr1
    rw [hnc] at hj
    simp only [Option.toList_none, toWrite, List.append_nil] at hj
    have phase_new : ∀ {c : Codec} {i : ι} {p : Nat} {f : Bytes} {u : Nat} {q : Option Nat} {t : Inst ι},
        openAt codecs i p f u q = some t → t.phase = .idle := by
      intro _ i p f u q t ht
      unfold openAt at ht
      split at ht
      · cases ht
      · injection ht with ht; subst ht; rfl
    rcases hj with ⟨hj, _⟩ | ⟨hp, _, _, hj, _, _⟩
    · rcases h with h | ⟨h1, h2⟩
      · -- still clearing, since the instance has not been replaced
        cases e with
        | put => cases hnc
        | delete => cases hnc
        | clear => cases hnc
        | drop =>
          simp only [step] at hstep
          split at hstep
          · cases hstep
          · rename_i hg
            simp only [ne_eq, Classical.not_not] at hg
            rw [hg] at h; cases h
        | io o =>
          simp only [step] at hstep
          split at hstep
          · cases hstep
          · simp only [Option.some.injEq, Prod.mk.injEq] at hstep
            obtain ⟨rfl, _⟩ := hstep
            exact .inl h
        | api i =>
          simp only [step] at hstep
          cases hp : s.phase with
          | idle => rw [hp] at h; cases h
          | closed => rw [hp] at h; cases h
          | push j => rw [hp] at h; cases h
          | send => rw [hp] at h; cases h
          | clrPush =>
            simp only [hp, Option.some.injEq, Prod.mk.injEq] at hstep
            obtain ⟨rfl, _⟩ := hstep; exact .inl rfl
          | clrSend =>
            simp only [hp] at hstep
            split at hstep
            · simp only [Option.some.injEq, Prod.mk.injEq] at hstep
              obtain ⟨rfl, _⟩ := hstep; exact .inl rfl
            · simp only [Option.some.injEq, Prod.mk.injEq] at hstep
              have := hr1 _ hstep.2.symm; simp at this
          | clrQuit =>
            simp only [hp] at hstep
            split at hstep
            · simp only [Option.some.injEq, Prod.mk.injEq] at hstep
              obtain ⟨rfl, _⟩ := hstep; exact .inl rfl
            · simp only [Option.some.injEq, Prod.mk.injEq] at hstep
              have := hr1 _ hstep.2.symm; simp at this
          | clrJoin =>
            simp only [hp] at hstep
            split at hstep
            · simp only [Option.some.injEq, Prod.mk.injEq] at hstep
              obtain ⟨rfl, _⟩ := hstep; exact .inl rfl
            · split at hstep
              · simp only [Option.some.injEq, Prod.mk.injEq] at hstep
                have := hr1 _ hstep.2.symm; simp at this
              · cases hstep
          | clrOpen =>
            simp only [hp] at hstep
            split at hstep
            · simp only [Option.some.injEq, Prod.mk.injEq] at hstep
              have := hr1 _ hstep.2.symm; simp at this
            · rename_i t ht
              simp only [(hb.joined hp).2, if_true, Option.some.injEq, Prod.mk.injEq] at hstep
              obtain ⟨rfl, _⟩ := hstep
              refine .inr ⟨?_, by rw [phase_new (c := codecs s.idx) ht]; simp⟩
              unfold openAt at ht
              split at ht
              · cases ht
              · injection ht with ht; subst ht; simp [jobs, Looper.new, Phase.inflight]
      · right
        rw [h1] at hj
        have hj' : s1.jobs = [] := by
          cases hx : s1.jobs with
          | nil => rfl
          | cons a l => rw [hx] at hj; simp at hj
        refine ⟨hj', fun hsend => ?_⟩
        cases e with
        | put => cases hnc
        | delete => cases hnc
        | clear => cases hnc
        | drop =>
          simp only [step] at hstep
          split at hstep
          · cases hstep
          · simp only [Option.some.injEq, Prod.mk.injEq] at hstep
            obtain ⟨rfl, _⟩ := hstep
            cases hsend
        | io o =>
          simp only [step] at hstep
          split at hstep
          · cases hstep
          · simp only [Option.some.injEq, Prod.mk.injEq] at hstep
            obtain ⟨rfl, _⟩ := hstep
            exact h2 hsend
        | api i =>
          simp only [step] at hstep
          cases hp : s.phase with
          | push j => simp [jobs, hp, Phase.inflight] at h1
          | clrPush => simp [jobs, hp, Phase.inflight] at h1
          | idle => simp only [hp] at hstep; cases hstep
          | closed => simp only [hp] at hstep; cases hstep
          | send => exact h2 hp
          | clrSend =>
            simp only [hp] at hstep
            split at hstep <;> simp only [Option.some.injEq, Prod.mk.injEq] at hstep <;> obtain ⟨rfl, _⟩ := hstep <;> cases hsend
          | clrQuit =>
            simp only [hp] at hstep
            split at hstep <;> simp only [Option.some.injEq, Prod.mk.injEq] at hstep <;> obtain ⟨rfl, _⟩ := hstep <;> cases hsend
          | clrJoin =>
            simp only [hp] at hstep
            split at hstep
            · simp only [Option.some.injEq, Prod.mk.injEq] at hstep
              obtain ⟨rfl, _⟩ := hstep; cases hsend
            · split at hstep
              · simp only [Option.some.injEq, Prod.mk.injEq] at hstep
                obtain ⟨rfl, _⟩ := hstep; cases hsend
              · cases hstep
          | clrOpen =>
            simp only [hp] at hstep
            split at hstep
            · simp only [Option.some.injEq, Prod.mk.injEq] at hstep
              obtain ⟨rfl, _⟩ := hstep; cases hsend
            · rename_i t ht
              simp only [(hb.joined hp).2, if_true, Option.some.injEq, Prod.mk.injEq] at hstep
              obtain ⟨rfl, _⟩ := hstep
              rw [phase_new (c := codecs s.idx) ht] at hsend; cases hsend
    · right
      refine ⟨hj, ?_⟩
      cases e with
      | put => cases hnc
      | delete => cases hnc
      | clear => cases hnc
      | drop =>
        simp only [step] at hstep
        split at hstep
        · cases hstep
        · rename_i hg; exact absurd hp (by simp only [ne_eq, Classical.not_not] at hg; rw [hg]; simp)
      | io o =>
        simp only [step] at hstep
        split at hstep
        · cases hstep
        · simp only [Option.some.injEq, Prod.mk.injEq] at hstep
          obtain ⟨rfl, _⟩ := hstep
          simp [hp]
      | api i =>
        simp only [step, hp] at hstep
        split at hstep
        · simp only [Option.some.injEq, Prod.mk.injEq] at hstep
          obtain ⟨rfl, _⟩ := hstep; simp
        · rename_i t ht
          simp only [(hb.joined hp).2, if_true, Option.some.injEq, Prod.mk.injEq] at hstep
          obtain ⟨rfl, _⟩ := hstep
          rw [phase_new (c := codecs s.idx) ht]; simp

/-- **C09** of calls, `clear_data`: when it has returned, all that the calls before it ask for, and the removal, has been done. -/
theorem C09_clear {es2 : List (Ev ι)} (hopen : openAt codecs i page file u q = some s0) (h0 : s0.Shows S0)
    (hrun : run codecs s0 (es ++ .clear :: es2) = some (s, rs)) (hok : ∀ r ∈ rs, r = .ok ())
    (hlast : calls es2 = []) (hidle : s.phase = .idle) :
    performed codecs s0 (es ++ .clear :: es2) = toWrite S0 (calls (es ++ [.clear] : List (Ev ι))) := by
  obtain ⟨hb, past, h1, h2⟩ := calls_open hopen h0 hrun hok
  have hc : calls (es ++ .clear :: es2) = calls (es ++ [.clear] : List (Ev ι)) := by
    simp [calls_append, calls_cons, hlast]
  rw [hc] at h1
  have hj : s.jobs = [] := by
    rw [show es ++ .clear :: es2 = (es ++ [.clear]) ++ es2 by simp] at hrun
    obtain ⟨s1, rs1, rs2, r1, r2, rfl⟩ := run_split _ _ hrun
    have hok1 : ∀ r ∈ rs1, r = .ok () := fun r hr => hok r (by simp [hr])
    have hok2 : ∀ r ∈ rs2, r = .ok () := fun r hr => hok r (by simp [hr])
    have hb1 := (book_run _ (book_open hopen) r1 hok1).1
    have hph : s1.phase = .clrPush := by
      obtain ⟨s3, rs3, rs4, r3, r4, rfl⟩ := run_split _ _ r1
      have hb3 := (book_run _ (book_open hopen) r3 (fun r hr => hok1 r (by simp [hr]))).1
      simp only [run] at r4
      split at r4
      · cases r4
      rename_i s5 r5 hst
      simp only [Option.some.injEq, Prod.mk.injEq] at r4
      obtain ⟨rfl, _⟩ := r4
      simp only [step] at hst
      split at hst
      · cases hst
      rename_i hg
      have hi3 : s3.phase = .idle := by simpa using hg
      have hv3 := hb3.valid
      simp only [hb3.poisoned, Bool.false_eq_true, if_false] at hst
      simp only [hv3, hi3, Phase.clearing, Bool.not_false, Bool.true_eq_false, if_false, Option.some.injEq, Prod.mk.injEq] at hst
      obtain ⟨rfl, _⟩ := hst
      rfl
    rcases clears_run es2 hb1 (.inl (by rw [hph]; rfl)) r2 hok2 hlast with h | ⟨h, _⟩
    · rw [hidle] at h; cases h
    · exact h
  rw [hj] at h1
  have hr : s.lp.ran = [] := by
    have := hb.ran_prefix
    rw [hj] at this
    simpa using List.prefix_nil.1 this
  rw [hr] at h2
  rw [h1, h2]
  simp

/-- **C45** of calls: whenever no call is under way and something the calls ask for has not been done, the background thread can take a
step - unless it has died of a job.  No further call is needed to push it out. -/
theorem C45_calls (hopen : openAt codecs i page file u q = some s0) (h0 : s0.Shows S0)
    (hrun : run codecs s0 es = some (s, rs)) (hok : ∀ r ∈ rs, r = .ok ()) (hidle : s.phase = .idle)
    (hmore : performed codecs s0 es ≠ toWrite S0 (calls es)) (halive : s.lp.io ≠ .dead) (o : Order) :
    ∃ s', step codecs s (.io o) = some (s', none) := by
  obtain ⟨hb, past, h1, h2⟩ := calls_open hopen h0 hrun hok
  have hsd : s.lp.sender = true := by rw [hb.sender, hidle]; rfl
  have how : s.lp.owed = 0 := by rw [hb.owed, hidle]; rfl
  have hj : s.jobs = s.lp.pushed := by simp [jobs, hidle, Phase.inflight]
  have hne : s.lp.ran.map (·.2) ≠ s.lp.pushed := by
    intro he
    apply hmore
    rw [h1, h2, hj, ← he, List.map_map]; rfl
  obtain ⟨_, _, hinv⟩ := hb.inv
  have hpre := hinv.ran_prefix
  rw [hb.late, List.append_nil] at hpre
  have hlt : s.lp.ran.length < s.lp.pushed.length := by
    have h3 := hpre.length_le
    rw [List.length_map] at h3
    rcases Nat.lt_or_eq_of_le h3 with h4 | h4
    · exact h4
    · exact absurd (hpre.eq_of_length (by rw [List.length_map]; exact h4)) hne
  have : ∃ lp, Looper.ioStep (fun o j cb => execJob (codecs s.idx) o j cb) o s.lp = some lp := by
    unfold Looper.ioStep
    cases hio : s.lp.io with
    | recv =>
      have hbuf := hinv.bufEmpty (.inl hio)
      rcases hinv.wake with w | w | w | w | w | w
      · rw [hio] at w; cases w
      · rw [hio] at w; cases w
      · rw [hbuf] at w; simp at w; omega
      · omega
      · simp only []
        cases hch : s.lp.chan with
        | nil => rw [hch] at w; cases w
        | cons c rest => cases c <;> exact ⟨_, rfl⟩
      · rw [hio] at w; cases w
    | swap => exact ⟨_, rfl⟩
    | run =>
      simp only []
      cases hbf : s.lp.buf with
      | nil => exact ⟨_, rfl⟩
      | cons j rest =>
        simp only []
        cases execJob (codecs s.idx) o j s.lp.cb <;> exact ⟨_, rfl⟩
    | unwinding => exact ⟨_, rfl⟩
    | exited =>
      have := (hinv.exitedClosed hio).1
      rw [hsd] at this; cases this
    | dead => exact absurd hio halive
  obtain ⟨lp, hlp⟩ := this
  exact ⟨{ s with lp := lp }, by simp only [step, hlp]⟩

end

/-- The calls of the examples: an overwrite, a delete of a key that is not there and one of a key that is, a `clear_data`, a put, the drop;
the background thread runs late. -/
def lateEvs : List (Ev Unit) :=
  [.put "a" 0 [0, 0, 0, 1], .api (), .api (), .delete "x", .put "a" 2 [1], .api (), .api (), .delete "a", .api (), .api ()]

def lateClear : List (Ev Unit) := [.api (), .api (), .api ()] ++ List.replicate 17 (.io idOrder) ++ [.api (), .api ()]

/-- Non-vacuity of the theorems above: in the middle (nothing done yet, and the thread can go on), after `clear_data`, after the drop. -/
example : ∃ s0, openAt plain () 64 [] = some s0 ∧ s0.Shows Store.empty ∧
    passes (run plain s0 lateEvs) (fun s rs => decide (rs = [.ok (), .ok (), .ok (), .ok ()] ∧ s.phase = .idle ∧ s.lp.io = .recv)) = true ∧
    performed plain s0 lateEvs = [] ∧
    passes (run plain s0 (lateEvs ++ .clear :: lateClear)) (fun s rs => decide (s.phase = .idle ∧ rs.length = 5 ∧ ∀ r ∈ rs, r = .ok ())) = true ∧
    performed plain s0 (lateEvs ++ .clear :: lateClear) = [.put "a" ⟨0, [0, 0, 0, 1]⟩, .put "a" ⟨2, [1]⟩, .delete "a", .clear] ∧
    passes (run plain s0 (lateEvs ++ .drop :: List.replicate 13 (.io idOrder))) (fun s _ => decide (s.phase = .closed ∧ s.lp.io = .exited)) = true ∧
    performed plain s0 (lateEvs ++ .drop :: List.replicate 13 (.io idOrder)) = [.put "a" ⟨0, [0, 0, 0, 1]⟩, .put "a" ⟨2, [1]⟩, .delete "a"] := by
  obtain ⟨s0, h1, h2⟩ := C01_fresh (codecs := plain) (i := ()) (page := 64) (by decide) []
  refine ⟨s0, h1, h2.1, ?_⟩
  have e : openAt plain () 64 [] = some s0 := h1
  have key : (match openAt plain () 64 [] with
    | none => false
    | some s0 => passes (run plain s0 lateEvs) (fun s rs => decide (rs = [.ok (), .ok (), .ok (), .ok ()] ∧ s.phase = .idle ∧ s.lp.io = .recv)) &&
      decide (performed plain s0 lateEvs = []) &&
      passes (run plain s0 (lateEvs ++ .clear :: lateClear)) (fun s rs => decide (s.phase = .idle ∧ rs.length = 5 ∧ ∀ r ∈ rs, r = .ok ())) &&
      decide (performed plain s0 (lateEvs ++ .clear :: lateClear) = [.put "a" ⟨0, [0, 0, 0, 1]⟩, .put "a" ⟨2, [1]⟩, .delete "a", .clear]) &&
      passes (run plain s0 (lateEvs ++ .drop :: List.replicate 13 (.io idOrder))) (fun s _ => decide (s.phase = .closed ∧ s.lp.io = .exited)) &&
      decide (performed plain s0 (lateEvs ++ .drop :: List.replicate 13 (.io idOrder)) =
        [.put "a" ⟨0, [0, 0, 0, 1]⟩, .put "a" ⟨2, [1]⟩, .delete "a"])) = true := by decide +kernel
  rw [e] at key
  simp only [Bool.and_eq_true, decide_eq_true_eq] at key
  obtain ⟨⟨⟨⟨⟨k1, k2⟩, k3⟩, k4⟩, k5⟩, k6⟩ := key
  exact ⟨k1, k2, k3, k4, k5, k6⟩

end Inst
end Mmkv
