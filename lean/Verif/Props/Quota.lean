import Verif.Props.Size
import Verif.Lemmas.Quota
/-!
# C58: a disk that runs full
-/

namespace Mmkv
open Spec Inst
variable {ι : Type}

/-- The keys put in a history, in order. -/
def putKeys (es : List (Ev ι)) : List String := es.filterMap fun | .put k _ _ => some k | _ => none

/-- A history without deletes and clears. -/
def Ev.Adds : Ev ι → Prop
  | .put .. | .api _ | .io _ | .drop => True
  | .delete _ | .clear => False

namespace Inst

/-- `a` is the store as it would be on an unlimited disk, up to the first failed write: `n` records of the calls `csA`
have been written to the file that both share. -/
structure Shadow (E : Env ι) (S0 : Store) (K : Nat) (cs : List Mutation) (s a : Inst ι) (csA : List Mutation) : Prop where
  dinv : DInv E S0 K csA a
  pre : csA <+: cs
  file : s.disk = a.disk
  notClr : s.phase.clearing = false
  aNotClr : a.phase.clearing = false
  idx : s.idx = a.idx
  jobs : a.jobs.map Job.mutation = csA
  fresh : ∀ b dup, Job.write b dup ∈ a.jobs → dup = false
  noTrim : a.lp.cb.ws.needTrim = false
  sync : s.Alive → a = s.noq ∧ csA = cs

/-- What the common file holds: the first calls, one per background write done. -/
theorem Shadow.holds {E : Env ι} {S0 : Store} {K : Nat} {cs csA : List Mutation} {s a : Inst ι} (h : Shadow E S0 K cs s a csA) :
    a.lp.ran.length ≤ csA.length ∧ GoodFile E (E.codecs s.idx) (K + cs.length) s.disk (S0.run (cs.take a.lp.ran.length)) := by
  obtain ⟨hbook, _, hpage, _, _, pre, post, K0, content, items, hcs, htr, hw, hK, hdisk⟩ := h.dinv
  obtain ⟨cb0, _, hinv⟩ := hbook.inv
  have hpre : a.lp.ran.map (·.2) <+: a.jobs := by
    have := hinv.ran_prefix
    rw [hbook.late, List.append_nil] at this
    exact this.trans ⟨_, rfl⟩
  have hjl : a.jobs.length = csA.length := by rw [← h.jobs]; simp
  have hlen : a.lp.ran.length ≤ a.jobs.length := by simpa using hpre.length_le
  have hpre0 : pre = [] := by
    have h1 := htr.length_le
    have h2 := congrArg List.length hcs
    simp only [List.length_map, List.length_append] at h1 h2
    exact List.length_eq_zero_iff.1 (by omega)
  subst hpre0
  have htake : a.lp.ran.map (·.2.mutation) = csA.take a.lp.ran.length := by
    rw [← h.jobs]
    obtain ⟨t, ht⟩ := hpre
    rw [← ht, List.map_append, List.take_left' (by simp), List.map_map]
    rfl
  have hnr : a.lp.cb.removed = false := by
    cases hr : a.lp.cb.removed with
    | false => rfl
    | true =>
      have := hbook.jobsW h.aNotClr .remove (hpre.subset (hbook.removed.1 hr))
      simp [Job.isWrite] at this
  refine ⟨by omega, ?_⟩
  have hS : S0.run (cs.take a.lp.ran.length) = Store.empty.run (mutations items) := by
    rw [hdisk.1 hnr, htake]
    obtain ⟨t, rfl⟩ := h.pre
    rw [List.take_append_of_le_length (by omega)]
    rfl
  have hd : a.disk = a.lp.cb.ws.file := by simp [disk, hnr]
  have hcl : csA.length ≤ cs.length := h.pre.length_le
  rw [h.file, hd, hS, h.idx]
  refine .held hw.holds hw.framed hw.bufs (by rw [← hpage]; exact hw.fits) ?_ ?_ hdisk.2
  · have := hw.count; omega
  · have := hw.size
    rw [hpage] at this
    exact Nat.le_trans this (Nat.mul_le_mul_left _ (by omega))

theorem shadow_open {E : Env ι} {i : ι} {K : Nat} {file : Bytes} {S : Store} {q : Option Nat} {s : Inst ι}
    (h : GoodFile E (E.codecs i) K file S) (ho : openAt E.codecs i E.page file 8 q = some s) :
    Shadow E S K [] s s.noq [] := by
  have h1 := openAt_noq ho
  obtain ⟨s1, hs1, hd, _⟩ := dinv_open h
  rw [hs1] at h1
  injection h1 with h1
  subst h1
  unfold openAt at ho
  split at ho
  · cases ho
  rename_i o hoo
  injection ho with ho
  subst ho
  have hnt : o.ws.needTrim = false := by
    unfold openStore at hoo
    simp only [] at hoo
    split at hoo
    · cases hoo
    split at hoo
    · cases hoo
    · injection hoo with hoo; subst hoo; rfl
  exact ⟨hd, ⟨[], rfl⟩, rfl, rfl, rfl, rfl, rfl, by simp [Inst.jobs, noq, Looper.new, Phase.inflight], hnt, fun _ => ⟨rfl, rfl⟩⟩


theorem append_needTrim {s s' : WState} {v : Bytes} (h : s.append v = .done s') : s'.needTrim = s.needTrim := by
  unfold WState.append at h
  split at h
  · cases h
  obtain ⟨s1, h1, h2⟩ := andThen_inv h
  unfold WState.storeLen at h1
  split at h1
  · cases h1
  unfold WState.store at h1 h2
  split at h1
  · cases h1
    split at h2
    · cases h2; rfl
    · cases h2
  · cases h1

theorem write_needTrim {c : Codec} {order : Order} {b : Buffer} {s s' : WState} (hn : s.needTrim = false)
    (h : s.write c order b false = .done s') : s'.needTrim = false := by
  unfold WState.write at h
  split at h
  · cases h
  split at h
  · cases h
  simp only [Bool.false_eq_true, if_false, hn] at h
  split at h
  · obtain ⟨s1, h1, h2⟩ := andThen_inv h
    cases h2
    rw [append_needTrim h1, hn]
  · obtain ⟨s2, h2, h3⟩ := andThen_inv h
    obtain ⟨s1, h1, h4⟩ := andThen_inv h2
    cases h3
    rw [append_needTrim h4]
    unfold WState.expand at h1
    simp only [] at h1
    split at h1
    · cases h1; exact hn
    · cases h1

/-- Once the background thread has died, nothing but `clear_data` changes the file. -/
theorem step_dead {codecs : ι → Codec} {s s' : Inst ι} {e : Ev ι} {r : Option (Out Unit)} (hd : ¬ s.Alive) (hadd : e.Adds)
    (hnc : s.phase.clearing = false) (hs : step codecs s e = some (s', r)) :
    s'.disk = s.disk ∧ s'.phase.clearing = false ∧ s'.idx = s.idx ∧ ¬ s'.Alive := by
  cases e with
  | delete k => exact hadd.elim
  | clear => exact hadd.elim
  | put k t bs =>
    simp only [step] at hs
    split at hs
    · cases hs
    split at hs
    · cases hs; exact ⟨rfl, hnc, rfl, hd⟩
    split at hs
    · cases hs; exact ⟨rfl, hnc, rfl, hd⟩
    · cases hs; exact ⟨rfl, rfl, rfl, hd⟩
  | drop =>
    simp only [step] at hs
    split at hs
    · cases hs
    · cases hs; exact ⟨rfl, rfl, rfl, hd⟩
  | io o =>
    simp only [step] at hs
    split at hs
    · cases hs
    rename_i lp hlp
    cases hs
    have hio : s.lp.io = .unwinding ∨ s.lp.io = .dead := by
      unfold Alive at hd
      cases h : s.lp.io <;> simp [h] at hd ⊢
    unfold Looper.ioStep at hlp
    rcases hio with h | h
    · simp only [h] at hlp
      cases hlp
      exact ⟨rfl, hnc, rfl, by simp [Alive]⟩
    · simp only [h] at hlp
      cases hlp
  | api i =>
    simp only [step] at hs
    cases hp : s.phase with
    | idle => simp [hp] at hs
    | closed => simp [hp] at hs
    | push j =>
      simp only [hp] at hs
      cases hs
      unfold Looper.push
      split <;> exact ⟨rfl, rfl, rfl, hd⟩
    | send =>
      simp only [hp] at hs
      cases hs
      unfold Looper.send
      split
      · split <;> exact ⟨rfl, rfl, rfl, hd⟩
      · exact ⟨rfl, rfl, rfl, hd⟩
    | clrPush => simp [hp, Phase.clearing] at hnc
    | clrSend => simp [hp, Phase.clearing] at hnc
    | clrQuit => simp [hp, Phase.clearing] at hnc
    | clrJoin => simp [hp, Phase.clearing] at hnc
    | clrOpen => simp [hp, Phase.clearing] at hnc

/-- Jobs and counters in a history that only adds. -/
theorem step_adds {codecs : ι → Codec} {s s' : Inst ι} {e : Ev ι} {r : Option (Out Unit)} (hb : Book codecs s) (hadd : e.Adds)
    (hfresh : ∀ k t bs, e = .put k t bs → s.kv.get k = none) (hnc : s.phase.clearing = false)
    (hjobs : ∀ b dup, Job.write b dup ∈ s.jobs → dup = false) (hnt : s.lp.cb.ws.needTrim = false) (hal : s'.lp.io ≠ .unwinding)
    (hs : step codecs s e = some (s', r)) :
    s'.phase.clearing = false ∧ s'.idx = s.idx ∧ s'.jobs.map Job.mutation = s.jobs.map Job.mutation ++ e.call?.toList ∧
    (∀ b dup, Job.write b dup ∈ s'.jobs → dup = false) ∧ s'.lp.cb.ws.needTrim = false ∧ s.lp.ran.length ≤ s'.lp.ran.length := by
  obtain ⟨cb0, _, hinv⟩ := hb.inv
  cases e with
  | delete k => exact hadd.elim
  | clear => exact hadd.elim
  | put k t bs =>
    simp only [step] at hs
    split at hs
    · cases hs
    rename_i hg
    have hidle : s.phase = .idle := by cases hp : s.phase <;> simp [hp] at hg ⊢
    have htok : tokenOk t = true := by simpa [hidle] using hg
    simp only [hb.poisoned, hb.valid, hidle, Phase.clearing, Bool.false_eq_true, if_false, Bool.not_false,
      Bool.true_eq_false, Option.some.injEq, Prod.mk.injEq] at hs
    obtain ⟨rfl, rfl⟩ := hs
    refine ⟨rfl, rfl, ?_, ?_, hnt, Nat.le_refl _⟩
    · simp [jobs, Phase.inflight, hidle, Job.mutation, mutation_ofRaw htok, Ev.call?]
    · intro b dup hj
      simp only [jobs, Phase.inflight, List.mem_append, List.mem_singleton] at hj
      rcases hj with hj | hj
      · exact hjobs b dup (by simp [jobs, hj])
      · injection hj with _ h2
        rw [h2, hfresh k t bs rfl]
        rfl
  | drop =>
    simp only [step] at hs
    split at hs
    · cases hs
    rename_i hg
    have hidle : s.phase = .idle := by simpa using hg
    cases hs
    refine ⟨rfl, rfl, ?_, ?_, hnt, Nat.le_refl _⟩
    · simp [jobs, hidle, Phase.inflight, Looper.dropSender, Ev.call?]
    · intro b dup hj
      exact hjobs b dup (by simpa [jobs, hidle, Phase.inflight, Looper.dropSender] using hj)
  | io o =>
    simp only [step] at hs
    split at hs
    · cases hs
    rename_i lp hlp
    cases hs
    have key : lp.pushed = s.lp.pushed → lp.cb.ws.needTrim = false → s.lp.ran.length ≤ lp.ran.length →
        ({ s with lp := lp } : Inst ι).phase.clearing = false ∧ ({ s with lp := lp } : Inst ι).idx = s.idx ∧
        (jobs { s with lp := lp }).map Job.mutation = s.jobs.map Job.mutation ++ (Ev.io o : Ev ι).call?.toList ∧
        (∀ b dup, Job.write b dup ∈ jobs { s with lp := lp } → dup = false) ∧ lp.cb.ws.needTrim = false ∧
        s.lp.ran.length ≤ lp.ran.length := by
      intro h1 h2 h3
      have hj : jobs { s with lp := lp } = s.jobs := by simp [jobs, h1]
      refine ⟨hnc, rfl, by rw [hj]; simp [Ev.call?], by rw [hj]; exact hjobs, h2, h3⟩
    unfold Looper.ioStep at hlp
    cases hio : s.lp.io with
    | recv =>
      simp only [hio] at hlp
      split at hlp
      · cases hlp; exact key rfl hnt (Nat.le_refl _)
      · cases hlp; exact key rfl hnt (Nat.le_refl _)
      · split at hlp
        · cases hlp
        · cases hlp; exact key rfl hnt (Nat.le_refl _)
    | swap => simp only [hio] at hlp; cases hlp; exact key rfl hnt (Nat.le_refl _)
    | unwinding => simp only [hio] at hlp; cases hlp; exact key rfl hnt (Nat.le_refl _)
    | exited => simp [hio] at hlp
    | dead => simp [hio] at hlp
    | run =>
      simp only [hio] at hlp
      cases hbuf : s.lp.buf with
      | nil => simp only [hbuf] at hlp; cases hlp; exact key rfl hnt (Nat.le_refl _)
      | cons j rest =>
        simp only [hbuf] at hlp
        have hmem : j ∈ s.jobs := by
          have hsp := hinv.split
          rw [hb.late, List.append_nil, hbuf] at hsp
          unfold jobs; rw [← hsp]; simp
        cases j with
        | remove => simp only [execJob] at hlp; cases hlp; exact key rfl hnt (by simp)
        | write b dup =>
          have hdup := hjobs b dup hmem
          subst hdup
          simp only [execJob] at hlp
          cases hw : s.lp.cb.ws.write (codecs s.idx) o b false with
          | panic ws => rw [hw] at hlp; cases hlp; exact absurd rfl hal
          | done ws => rw [hw] at hlp; cases hlp; exact key rfl (write_needTrim hnt hw) (by simp)
  | api i =>
    simp only [step] at hs
    have hsd := hb.sender
    cases hp : s.phase with
    | idle => simp [hp] at hs
    | closed => simp [hp] at hs
    | push j =>
      have hsd : s.lp.sender = true := by simpa [hp, Phase.open] using hsd
      simp only [hp] at hs
      cases hs
      have hj : jobs { s with lp := Looper.push s.lp j, phase := .send } = s.jobs := by
        simp [jobs, Looper.push, hsd, hp, Phase.inflight]
      have h1 : (Looper.push s.lp j).cb = s.lp.cb ∧ (Looper.push s.lp j).ran = s.lp.ran := by simp [Looper.push, hsd]
      refine ⟨rfl, rfl, by rw [hj]; simp [Ev.call?], by rw [hj]; exact hjobs, by rw [h1.1]; exact hnt, by rw [h1.2]; exact Nat.le_refl _⟩
    | send =>
      simp only [hp] at hs
      cases hs
      have h1 : (Looper.send s.lp).1.cb = s.lp.cb ∧ (Looper.send s.lp).1.ran = s.lp.ran ∧ (Looper.send s.lp).1.pushed = s.lp.pushed := by
        unfold Looper.send
        split
        · split <;> exact ⟨rfl, rfl, rfl⟩
        · exact ⟨rfl, rfl, rfl⟩
      have hj : jobs { s with lp := (Looper.send s.lp).1, phase := .idle } = s.jobs := by
        simp [jobs, h1.2.2, hp, Phase.inflight]
      refine ⟨rfl, rfl, by rw [hj]; simp [Ev.call?], by rw [hj]; exact hjobs, by rw [h1.1]; exact hnt, by rw [h1.2.1]; exact Nat.le_refl _⟩
    | clrPush => simp [hp, Phase.clearing] at hnc
    | clrSend => simp [hp, Phase.clearing] at hnc
    | clrQuit => simp [hp, Phase.clearing] at hnc
    | clrJoin => simp [hp, Phase.clearing] at hnc
    | clrOpen => simp [hp, Phase.clearing] at hnc

/-- How a background thread dies: in a write job. -/
theorem step_dies {codecs : ι → Codec} {s s' : Inst ι} {e : Ev ι} {r : Option (Out Unit)} (hadd : e.Adds)
    (hnc : s.phase.clearing = false) (hal : s.Alive) (hd : ¬ s'.Alive) (hs : step codecs s e = some (s', r)) :
    ∃ o b dup rest ws, e = .io o ∧ s.lp.io = .run ∧ s.lp.buf = .write b dup :: rest ∧
      s.lp.cb.ws.write (codecs s.idx) o b dup = .panic ws ∧
      s' = { s with lp := { s.lp with cb := { s.lp.cb with ws := ws }, buf := rest, ran := s.lp.ran ++ [(o, .write b dup)], io := .unwinding } } := by
  cases e with
  | delete k => exact hadd.elim
  | clear => exact hadd.elim
  | put k t bs =>
    exfalso
    simp only [step] at hs
    split at hs
    · cases hs
    split at hs
    · cases hs; exact hd hal
    split at hs
    · cases hs; exact hd hal
    · cases hs; exact hd hal
  | drop =>
    exfalso
    simp only [step] at hs
    split at hs
    · cases hs
    · cases hs; exact hd hal
  | api i =>
    exfalso
    simp only [step] at hs
    cases hp : s.phase with
    | idle => simp [hp] at hs
    | closed => simp [hp] at hs
    | push j =>
      simp only [hp] at hs
      cases hs
      unfold Looper.push at hd
      split at hd <;> exact hd hal
    | send =>
      simp only [hp] at hs
      cases hs
      unfold Looper.send at hd
      split at hd
      · split at hd <;> exact hd hal
      · exact hd hal
    | clrPush => simp [hp, Phase.clearing] at hnc
    | clrSend => simp [hp, Phase.clearing] at hnc
    | clrQuit => simp [hp, Phase.clearing] at hnc
    | clrJoin => simp [hp, Phase.clearing] at hnc
    | clrOpen => simp [hp, Phase.clearing] at hnc
  | io o =>
    simp only [step] at hs
    split at hs
    · cases hs
    rename_i lp hlp
    cases hs
    unfold Looper.ioStep at hlp
    cases hio : s.lp.io with
    | recv =>
      exfalso
      simp only [hio] at hlp
      split at hlp
      · cases hlp; simp [Alive] at hd
      · cases hlp; simp [Alive] at hd
      · split at hlp
        · cases hlp
        · cases hlp; simp [Alive] at hd
    | swap => simp only [hio] at hlp; cases hlp; simp [Alive] at hd
    | unwinding => exact absurd hio hal.1
    | exited => simp [hio] at hlp
    | dead => simp [hio] at hlp
    | run =>
      simp only [hio] at hlp
      cases hbuf : s.lp.buf with
      | nil => simp only [hbuf] at hlp; cases hlp; simp [Alive] at hd
      | cons j rest =>
        simp only [hbuf] at hlp
        cases j with
        | remove => simp only [execJob] at hlp; cases hlp; simp [Alive] at hd
        | write b dup =>
          simp only [execJob] at hlp
          cases hw : s.lp.cb.ws.write (codecs s.idx) o b dup with
          | panic ws =>
            rw [hw] at hlp
            cases hlp
            exact ⟨o, b, dup, rest, ws, rfl, rfl, rfl, hw, rfl⟩
          | done ws => rw [hw] at hlp; cases hlp; simp [Alive] at hd

theorem view_none {m : KvMap Buffer} {k : String} (h : view m k = none) : m.get k = none := by
  unfold view at h
  cases hk : m.get k with
  | none => rfl
  | some b => simp [hk] at h

theorem shadow_step {E : Env ι} {S0 : Store} {K : Nat} {cs csA : List Mutation} {s s' a : Inst ι} {e : Ev ι}
    {r : Option (Out Unit)} (h : Shadow E S0 K cs s a csA) (he : e.Ok E) (hadd : e.Adds)
    (hfresh : ∀ k t bs, e = .put k t bs → S0.run cs k = none) (hroom : E.Room (K + cs.length))
    (hs : step E.codecs s e = some (s', r)) :
    ∃ a' csA', Shadow E S0 K (cs ++ e.call?.toList) s' a' csA' ∧ a.lp.ran.length ≤ a'.lp.ran.length := by
  by_cases hal : s.Alive
  · obtain ⟨ha, hc⟩ := h.sync hal
    subst ha hc
    by_cases hal' : s'.Alive
    · have hst := step_noq hs hal'.1
      obtain ⟨_, hd'⟩ := dinv_step h.dinv he hroom hst
      obtain ⟨h1, h2, h3, h4, h5, h6⟩ := step_adds h.dinv.book hadd
        (fun k t bs hk => view_none (by rw [h.dinv.kvView]; exact hfresh k t bs hk)) h.aNotClr h.fresh h.noTrim (s' := s'.noq) hal'.1 hst
      exact ⟨s'.noq, csA ++ e.call?.toList, ⟨hd', ⟨[], by simp⟩, rfl, h1, h1, rfl, by rw [h3, h.jobs], h4, h5, fun _ => ⟨rfl, rfl⟩⟩, h6⟩
    · obtain ⟨o, b, dup, rest, ws, rfl, hio, hbuf, hw, rfl⟩ := step_dies hadd h.notClr hal hal' hs
      have hcall : csA ++ (Ev.io o : Ev ι).call?.toList = csA := by simp [Ev.call?]
      rw [hcall]
      have hbuf' : s.noq.lp.buf = .write b dup :: rest := hbuf
      -- the same write on an unlimited disk
      have hmem : Job.write b dup ∈ s.noq.jobs := by
        obtain ⟨cb0, _, hinv⟩ := h.dinv.book.inv
        have hsp := hinv.split
        rw [h.dinv.book.late, List.append_nil, hbuf'] at hsp
        unfold jobs; rw [← hsp]; simp
      have hdup := h.fresh b dup hmem
      subst hdup
      have hdone : ∃ ws1, s.lp.cb.ws.noq.write (E.codecs s.idx) o b false = .done ws1 := by
        cases hwq : s.lp.cb.ws.noq.write (E.codecs s.idx) o b false with
        | done ws1 => exact ⟨ws1, rfl⟩
        | panic ws1 =>
          exfalso
          have hst : step E.codecs s.noq (.io o) = some ({ s.noq with lp := { s.noq.lp with
              cb := { s.noq.lp.cb with ws := ws1 }, buf := rest, ran := s.lp.ran ++ [(o, .write b false)], io := .unwinding } }, none) := by
            simp only [step, Looper.ioStep]
            rw [show s.noq.lp.io = .run from hio, hbuf']
            simp only [execJob]
            rw [show s.noq.idx = s.idx from rfl, show s.noq.lp.cb.ws = s.lp.cb.ws.noq from rfl, hwq]
            rfl
          obtain ⟨_, hd'⟩ := dinv_step h.dinv he hroom hst
          exact hd'.alive.1 rfl
      obtain ⟨hf, _⟩ := write_quota_append (by rw [show s.lp.cb.ws.needTrim = false from h.noTrim]; rfl) hw hdone
      have hnr := not_removed h.dinv.book hbuf'
      refine ⟨s.noq, csA, ⟨h.dinv, ⟨[], by simp⟩, ?_, h.notClr, h.aNotClr, rfl, h.jobs, h.fresh, h.noTrim, fun hx => absurd hx hal'⟩, Nat.le_refl _⟩
      rw [disk_noq]
      unfold disk
      simp only [show s.lp.cb.removed = false from hnr, hf]
  · obtain ⟨h1, h2, h3, h4⟩ := step_dead hal hadd h.notClr hs
    exact ⟨a, csA, ⟨h.dinv, h.pre.trans ⟨_, rfl⟩, by rw [h1, h.file], h2, h.aNotClr, by rw [h3, h.idx], h.jobs, h.fresh, h.noTrim,
      fun hx => absurd hx h4⟩, Nat.le_refl _⟩

theorem apply_put_ne {S : Store} {k k' : String} {x : Entry} (h : k' ≠ k) : (S.apply (.put k x)) k' = S k' := by
  simp [Store.apply, h]

theorem shadow_run {E : Env ι} {S0 : Store} {K : Nat} (es : List (Ev ι)) {cs csA : List Mutation} {s s' a : Inst ι}
    {rs : List (Out Unit)} (h : Shadow E S0 K cs s a csA) (he : ∀ e ∈ es, e.Ok E) (hadd : ∀ e ∈ es, e.Adds)
    (hnd : (putKeys es).Nodup) (hfresh : ∀ k ∈ putKeys es, S0.run cs k = none)
    (hroom : E.Room (K + cs.length + (calls es).length)) (hs : run E.codecs s es = some (s', rs)) :
    ∃ a' csA', Shadow E S0 K (cs ++ calls es) s' a' csA' ∧ a.lp.ran.length ≤ a'.lp.ran.length := by
  induction es generalizing s rs cs a csA with
  | nil =>
    simp only [run, Option.some.injEq, Prod.mk.injEq] at hs
    obtain ⟨rfl, rfl⟩ := hs
    exact ⟨a, csA, by simpa using h, Nat.le_refl _⟩
  | cons e es ih =>
    unfold run at hs
    split at hs
    · cases hs
    rename_i s1 r hstep
    split at hs
    · cases hs
    rename_i s2 rs2 hrun
    simp only [Option.some.injEq, Prod.mk.injEq] at hs
    obtain ⟨rfl, rfl⟩ := hs
    have hne : Nonempty ι := ⟨s.idx⟩
    rw [calls_cons] at hroom ⊢
    simp only [List.length_append] at hroom
    obtain ⟨a1, c1, hsh, hle⟩ := shadow_step h (he e List.mem_cons_self) (hadd e List.mem_cons_self)
      (fun k t bs hk => hfresh k (by subst hk; simp [putKeys])) (hroom.mono (by omega)) hstep
    have hsub : ∀ k ∈ putKeys es, k ∈ putKeys (e :: es) := by
      intro k hk
      unfold putKeys at hk ⊢
      simp only [List.mem_filterMap] at hk ⊢
      obtain ⟨x, hx, hxk⟩ := hk
      exact ⟨x, List.mem_cons_of_mem _ hx, hxk⟩
    have hnd' : (putKeys es).Nodup := by
      cases e with
      | put k t bs => exact (List.nodup_cons.1 (show (k :: putKeys es).Nodup from hnd)).2
      | delete k => exact hnd
      | clear => exact hnd
      | api i => exact hnd
      | drop => exact hnd
      | io o => exact hnd
    have hfr' : ∀ k ∈ putKeys es, S0.run (cs ++ e.call?.toList) k = none := by
      intro k hk
      have h0 := hfresh k (hsub k hk)
      cases e with
      | put k1 t bs =>
        have hne : k ≠ k1 := by
          rintro rfl
          exact (List.nodup_cons.1 (show (k :: putKeys es).Nodup from hnd)).1 hk
        simp only [Ev.call?, Option.toList]
        rw [run_snoc, apply_put_ne hne, h0]
      | delete k => exact (hadd _ List.mem_cons_self).elim
      | clear => exact (hadd _ List.mem_cons_self).elim
      | api i => simpa [Ev.call?] using h0
      | drop => simpa [Ev.call?] using h0
      | io o => simpa [Ev.call?] using h0
    obtain ⟨a2, c2, hsh2, hle2⟩ := ih hsh (fun e' he' => he e' (List.mem_cons_of_mem _ he'))
      (fun e' he' => hadd e' (List.mem_cons_of_mem _ he')) hnd' hfr'
      (by simp only [List.length_append]; rw [show K + (cs.length + e.call?.toList.length) + (calls es).length =
            K + cs.length + (e.call?.toList.length + (calls es).length) by omega]; exact hroom) hrun
    exact ⟨a2, c2, by rw [← List.append_assoc]; exact hsh2, by omega⟩

end Inst

/-- Puts of new keys take nothing away. -/
theorem run_puts_keep {S : Store} : ∀ (ms : List Mutation), (∀ m ∈ ms, ∃ k x, m = .put k x ∧ S k = none) →
    ∀ k x, S k = some x → S.run ms k = some x := by
  intro ms
  suffices h : ∀ (ms : List Mutation) (T : Store), (∀ m ∈ ms, ∃ k x, m = .put k x ∧ S k = none) →
      (∀ k x, S k = some x → T k = some x) → ∀ k x, S k = some x → T.run ms k = some x from
    fun hm => h ms S hm (fun _ _ hk => hk)
  intro ms
  induction ms with
  | nil => intro T _ hT; exact hT
  | cons m ms ih =>
    intro T hm hT
    obtain ⟨k1, x1, rfl, hk1⟩ := hm m List.mem_cons_self
    refine ih (T.apply (.put k1 x1)) (fun m' hm' => hm m' (List.mem_cons_of_mem _ hm')) ?_
    intro k x hk
    have hne : k ≠ k1 := by
      rintro rfl
      rw [hk1] at hk; cases hk
    rw [apply_put_ne hne, hT k x hk]

theorem calls_adds {es : List (Ev ι)} (hadd : ∀ e ∈ es, e.Adds) :
    ∀ m ∈ calls es, ∃ k x, m = .put k x := by
  intro m hm
  unfold calls at hm
  simp only [List.mem_filterMap] at hm
  obtain ⟨e, he, hm⟩ := hm
  have := hadd e he
  cases e with
  | put k t bs => simp only [Ev.call?, Option.some.injEq] at hm; exact ⟨_, _, hm.symm⟩
  | delete k => exact this.elim
  | clear => exact this.elim
  | api i => cases hm
  | drop => cases hm
  | io o => cases hm

theorem calls_keys {es : List (Ev ι)} (hadd : ∀ e ∈ es, e.Adds) :
    (calls es).map (fun | .put k _ => k | _ => "") = putKeys es := by
  induction es with
  | nil => rfl
  | cons e es ih =>
    have := hadd e List.mem_cons_self
    have ih := ih (fun e' he' => hadd e' (List.mem_cons_of_mem _ he'))
    rw [calls_cons]
    cases e with
    | put k t bs => simp only [Ev.call?, Option.toList, List.singleton_append, List.map_cons, ih]; rfl
    | delete k => exact this.elim
    | clear => exact this.elim
    | api i => simpa [Ev.call?, putKeys] using ih
    | drop => simpa [Ev.call?, putKeys] using ih
    | io o => simpa [Ev.call?, putKeys] using ih

/-- A put of other keys leaves a key alone. -/
theorem run_puts_other {S : Store} {k : String} : ∀ (ms : List Mutation), (∀ m ∈ ms, ∃ k' x, m = .put k' x ∧ k' ≠ k) →
    S.run ms k = S k := by
  intro ms
  induction ms generalizing S with
  | nil => intro _; rfl
  | cons m ms ih =>
    intro hm
    obtain ⟨k1, x1, rfl, hk1⟩ := hm m List.mem_cons_self
    have := ih (S := S.apply (.put k1 x1)) (fun m' hm' => hm m' (List.mem_cons_of_mem _ hm'))
    show (S.apply (.put k1 x1)).run ms k = S k
    rw [this, apply_put_ne (Ne.symm hk1)]

/-- **C58**, what is true: on a disk of any size, a session that only puts keys that were not there before (nothing to
compact) never loses anything already saved.  Whatever the limit, and whether or not the background thread has died of it
by then, between any two steps the file opens and shows the first so many of the calls, and whatever a reopening would
have shown at an earlier moment is still there later.  Missing from C58: overwriting and deleting, whose compaction
empties the file before it asks for space (`C58_refuted`). -/
theorem C58_partial {page q : Nat} (h8 : 8 ≤ page) (h32 : page < 2 ^ 32) {file : Bytes} {s0 s1 s2 : Inst Unit} {S0 : Store}
    {es1 es2 : List (Ev Unit)} {rs1 rs2 : List (Out Unit)} (hopen : openAt plain () page file 8 (some q) = some s0)
    (h0 : s0.Shows S0) (hrec : RecordsFit page file ∨ Canonical file)
    (hrun1 : run plain s0 es1 = some (s1, rs1)) (hrun2 : run plain s1 es2 = some (s2, rs2))
    (hfit : ∀ e ∈ es1 ++ es2, e.Fits page) (hadd : ∀ e ∈ es1 ++ es2, e.Adds)
    (hnew : (putKeys (es1 ++ es2)).Nodup) (habs : ∀ k ∈ putKeys (es1 ++ es2), S0 k = none)
    (hroom : page * (file.length + (calls (es1 ++ es2)).length) + 8 < 2 ^ 64) :
    ∃ m1 m2 i1 i2, m1 ≤ m2 ∧ m2 ≤ (calls (es1 ++ es2)).length ∧
      openAt plain () page s1.disk = some i1 ∧ i1.Shows (S0.run ((calls (es1 ++ es2)).take m1)) ∧
      openAt plain () page s2.disk = some i2 ∧ i2.Shows (S0.run ((calls (es1 ++ es2)).take m2)) ∧
      ∀ k x, S0.run ((calls (es1 ++ es2)).take m1) k = some x → S0.run ((calls (es1 ++ es2)).take m2) k = some x := by
  have hop := openAt_noq hopen
  have hS0 : view s0.noq.kv = S0 := (shows_open hopen).1 h0
  have hg := goodFile_of_open (h8 := h8) (h32 := h32) hop hrec
  rw [hS0] at hg
  have hsh0 := shadow_open (E := plainEnv page h8 True) (i := ()) hg hopen
  have hk1 : putKeys (es1 ++ es2) = putKeys es1 ++ putKeys es2 := by simp [putKeys]
  have hc1 : calls (es1 ++ es2) = calls es1 ++ calls es2 := calls_append _ _
  rw [hk1] at hnew habs
  rw [hc1, List.length_append] at hroom
  have hnd := List.nodup_append.1 hnew
  have hle1 := Nat.mul_le_mul_left page (show file.length + (calls es1).length ≤ file.length + ((calls es1).length + (calls es2).length) by omega)
  have hadd1 : ∀ e ∈ es1, e.Adds := fun e he => hadd e (List.mem_append_left _ he)
  have hadd2 : ∀ e ∈ es2, e.Adds := fun e he => hadd e (List.mem_append_right _ he)
  obtain ⟨a1, c1, hsh1, _⟩ := shadow_run es1 hsh0 (fun e he => (hfit e (List.mem_append_left _ he)).ok h32)
    hadd1 hnd.1 (fun k hk => habs k (List.mem_append_left _ hk)) (plain_room (by simpa using by omega)) hrun1
  rw [List.nil_append] at hsh1
  have hfr2 : ∀ k ∈ putKeys es2, S0.run (calls es1) k = none := by
    intro k hk
    rw [run_puts_other, habs k (List.mem_append_right _ hk)]
    intro m hm
    obtain ⟨k', x, rfl⟩ := calls_adds hadd1 m hm
    refine ⟨k', x, rfl, ?_⟩
    rintro rfl
    refine hnd.2.2 k' ?_ k' hk rfl
    rw [← calls_keys hadd1]
    exact List.mem_map.2 ⟨_, hm, rfl⟩
  obtain ⟨a2, c2, hsh2, hle⟩ := shadow_run es2 hsh1 (fun e he => (hfit e (List.mem_append_right _ he)).ok h32)
    hadd2 hnd.2.1 hfr2 (plain_room (by rw [Nat.add_assoc]; exact hroom)) hrun2
  obtain ⟨hl1, hg1⟩ := hsh1.holds
  obtain ⟨hl2, hg2⟩ := hsh2.holds
  have hp1 := hsh1.pre.length_le
  have hp2 := hsh2.pre.length_le
  obtain ⟨i1, hi1, hd1, _⟩ := dinv_open hg1
  obtain ⟨i2, hi2, hd2, _⟩ := dinv_open hg2
  have hv1 : view i1.kv = S0.run ((calls es1 ++ calls es2).take a1.lp.ran.length) := by
    have := hd1.kvView
    rw [List.take_append_of_le_length (by omega)]
    exact this
  have hv2 : view i2.kv = S0.run ((calls es1 ++ calls es2).take a2.lp.ran.length) := hd2.kvView
  rw [hc1]
  refine ⟨a1.lp.ran.length, a2.lp.ran.length, i1, i2, hle, by omega, hi1, shows_of_view hi1 hv1, hi2, shows_of_view hi2 hv2, ?_⟩
  -- the later calls are about other keys
  generalize hC : calls es1 ++ calls es2 = C
  generalize a1.lp.ran.length = n1 at hle
  generalize a2.lp.ran.length = n2 at hle
  have hsplit : C.take n2 = C.take n1 ++ (C.take n2).drop n1 := by
    conv => lhs; rw [← List.take_append_drop n1 (C.take n2)]
    rw [List.take_take, Nat.min_eq_left hle]
  have hCadd : ∀ m ∈ C, ∃ k x, m = .put k x := by
    intro m hm
    rw [← hC, ← hc1] at hm
    exact calls_adds hadd m hm
  have hCkeys : C.map (fun | .put k _ => k | _ => "") = putKeys es1 ++ putKeys es2 := by
    rw [← hC, ← hc1, ← hk1]; exact calls_keys hadd
  have hCnd : ((C.take n2).map (fun | .put k _ => k | _ => "")).Nodup := by
    refine List.Sublist.nodup ((List.take_sublist n2 C).map _) ?_
    rw [hCkeys]; exact hnew
  rw [hsplit, List.map_append] at hCnd
  rw [hsplit, run_append]
  refine run_puts_keep _ ?_
  intro m hm
  have hmC : m ∈ C := List.mem_of_mem_take (List.mem_of_mem_drop hm)
  obtain ⟨k, x, rfl⟩ := hCadd m hmC
  refine ⟨k, x, rfl, ?_⟩
  rw [run_puts_other, habs k]
  · rw [← hCkeys]; exact List.mem_map.2 ⟨_, hmC, rfl⟩
  · intro m' hm'
    obtain ⟨k', x', rfl⟩ := hCadd m' (List.mem_of_mem_take hm')
    refine ⟨k', x', rfl, ?_⟩
    rintro rfl
    exact (List.nodup_append.1 hCnd).2.2 _ (List.mem_map.2 ⟨_, hm', rfl⟩) _ (List.mem_map.2 ⟨_, hm, rfl⟩) rfl


/-- A history from a fresh directory with 64-byte pages on a disk that grants the file 64 bytes. -/
def limited64 (es : List (Ev Unit)) : Option (Inst Unit × List (Out Unit)) :=
  match openAt plain () 64 [] 8 (some 64) with
  | none => none
  | some s => run plain s es

/-- The hypotheses of `C58_partial` are met by a session whose second put finds the disk full: the thread dies, the
first value stays. -/
example : ∃ s0 s1 s2 rs1 rs2, openAt plain () 64 [] 8 (some 64) = some s0 ∧ s0.Shows Store.empty ∧
    run plain s0 (fullPut "a" 6 (List.replicate 44 7)) = some (s1, rs1) ∧
    run plain s1 (fullPut "b" 6 [1]) = some (s2, rs2) ∧ s2.lp.io = .dead ∧
    (putKeys (fullPut "a" 6 (List.replicate 44 7) ++ fullPut "b" 6 [1])).Nodup ∧
    fileRecords crcCodec s2.disk = some [some ⟨"a", 6, List.replicate 44 7⟩] := by
  have h : (match openAt plain () 64 [] 8 (some 64) with
    | none => false
    | some s0 => match run plain s0 (fullPut "a" 6 (List.replicate 44 7)) with
      | none => false
      | some (s1, _) => passes (run plain s1 (fullPut "b" 6 [1])) fun s2 _ => decide (s0.kv = [] ∧ s2.lp.io = .dead ∧
        fileRecords crcCodec s2.disk = some [some ⟨"a", 6, List.replicate 44 7⟩])) = true := by decide +kernel
  split at h
  · cases h
  rename_i s0 hs0
  split at h
  · cases h
  rename_i s1 rs1 hr1
  obtain ⟨s2, rs2, h1, h2⟩ := exists_of_passes h
  simp only [decide_eq_true_eq] at h2
  refine ⟨s0, s1, s2, rs1, rs2, hs0, (shows_open hs0).2 (by rw [h2.1]; rfl), hr1, h1, h2.2.1, by decide, h2.2.2⟩

/-- **C58 is false** when a value is replaced: on a full disk the compaction empties the file first and then fails to get
the space.  Two values are put, both are on disk; a put of a longer value for `b` returns `Ok`; afterwards the file does
not hold `a` any more, which nobody touched. -/
theorem C58_refuted : ∃ s1 s2 rs1 rs2, limited64 (fullPut "a" 6 [1] ++ fullPut "b" 6 [2]) = some (s1, rs1) ∧
    run plain s1 [.put "b" 6 (List.replicate 32 7), .api (), .api (), .io id, .io id, .io id, .io id] = some (s2, rs2) ∧ rs1 = [.ok (), .ok ()] ∧ rs2 = [.ok ()] ∧
    FileShows s1.disk (Store.empty.run [.put "a" ⟨6, [1]⟩, .put "b" ⟨6, [2]⟩]) ∧
    FileShows s2.disk (Store.empty.run [.put "b" ⟨6, List.replicate 32 7⟩]) := by
  have h : (match limited64 (fullPut "a" 6 [1] ++ fullPut "b" 6 [2]) with
    | none => false
    | some (s1, rs1) => passes (run plain s1 [.put "b" 6 (List.replicate 32 7), .api (), .api (), .io id, .io id, .io id, .io id]) fun s2 rs2 =>
      decide (rs1 = [.ok (), .ok ()] ∧ rs2 = [.ok ()] ∧
        fileRecords crcCodec s1.disk = some [some ⟨"a", 6, [1]⟩, some ⟨"b", 6, [2]⟩] ∧ s1.disk.length = 64 ∧
        fileRecords crcCodec s2.disk = some [some ⟨"b", 6, List.replicate 32 7⟩] ∧ s2.disk.length = 64)) = true := by decide +kernel
  split at h
  · cases h
  rename_i s1 rs1 hr1
  obtain ⟨s2, rs2, h1, h2⟩ := exists_of_passes h
  simp only [decide_eq_true_eq] at h2
  obtain ⟨g1, g2, g3, g4, g5, g6⟩ := h2
  refine ⟨s1, s2, rs1, rs2, hr1, h1, g1, g2, ?_, ?_⟩
  · have hr : AtRest (WState.mk s1.disk s1.disk.length 64 2 false 8 none []) [some ⟨"a", 6, [1]⟩, some ⟨"b", 6, [2]⟩] :=
      ⟨rfl, g3, rfl, rfl, rfl⟩
    simpa [mutations, Buffer.mutation, Buffer.isDeleting, deletedToken, Buffer.entry] using hr.fileShows
  · have hr : AtRest (WState.mk s2.disk s2.disk.length 64 1 false 8 none []) [some ⟨"b", 6, List.replicate 32 7⟩] :=
      ⟨rfl, g5, rfl, rfl, rfl⟩
    simpa [mutations, Buffer.mutation, Buffer.isDeleting, deletedToken, Buffer.entry] using hr.fileShows

end Mmkv
