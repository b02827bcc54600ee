import Verif.Lemmas.Bounded
/-! How many bytes the background thread stores into the file. -/

namespace Mmkv
open Spec
variable {ι : Type}

/-- Bytes stored by a change of the file. -/
def Eff.bytes : Eff → Nat
  | .store _ bs => bs.length
  | .setLen _ => 0

/-- Bytes stored by several changes. -/
def stored (log : List Eff) : Nat := (log.map Eff.bytes).sum

theorem stored_append (a b : List Eff) : stored (a ++ b) = stored a + stored b := by
  simp [stored]

/-- The records of a codec have the length `recLen` says. -/
def Sized (c : Codec) (recLen : Buffer → Nat) : Prop := ∀ b p data, c.enc b p = some data → data.length = recLen b

theorem store_cost {s s' : WState} {off : Nat} {bs : Bytes} (h : s.store off bs = .done s') : stored s'.log = stored s.log + bs.length := by
  unfold WState.store at h
  split at h
  · injection h with h; subst h
    rw [stored_append]; simp [stored, Eff.bytes]
  · cases h

theorem storeLen_cost {s s' : WState} {n : Nat} (h : s.storeLen n = .done s') : stored s'.log = stored s.log + 8 := by
  unfold WState.storeLen at h
  split at h
  · cases h
  · rw [store_cost h]; simp

theorem andThen_done_iff {α : Type} {r : Run α} {f : α → Run α} {x : α} (h : r.andThen f = .done x) : ∃ y, r = .done y ∧ f y = .done x := by
  cases r with
  | done y => exact ⟨y, rfl, h⟩
  | panic y => cases h

theorem append_cost {s s' : WState} {v : Bytes} (h : s.append v = .done s') : stored s'.log = stored s.log + 8 + v.length := by
  unfold WState.append at h
  split at h
  · cases h
  · obtain ⟨y, h1, h2⟩ := andThen_done_iff h
    rw [store_cost h2, storeLen_cost h1]

theorem expand_cost {s s' : WState} (h : s.expand = .done s') : stored s'.log = stored s.log := by
  unfold WState.expand at h
  simp only [] at h
  split at h
  · injection h with h; subst h
    rw [stored_append]; simp [stored, Eff.bytes]
  · cases h

theorem trimLoop_cost {c : Codec} {recLen : Buffer → Nat} (hz : Sized c recLen) (maxLen : Nat) : ∀ (bs : List Buffer) {s s' : WState},
    WState.trimLoop c maxLen bs s = .done s' → stored s'.log = stored s.log + 8 * bs.length + sumLen recLen bs
  | [], s, s', h => by
    simp only [WState.trimLoop, Run.done.injEq] at h
    subst h; simp [sumLen]
  | b :: rest, s, s', h => by
    unfold WState.trimLoop at h
    split at h
    · cases h
    rename_i data hd
    split at h
    · cases h
    obtain ⟨s3, h1, h2⟩ := andThen_done_iff h
    obtain ⟨s2, h3, h4⟩ := andThen_done_iff h1
    obtain ⟨s1, h5, h6⟩ := andThen_done_iff h3
    have e1 : stored s1.log = stored s.log := by
      split at h5
      · exact expand_cost h5
      · injection h5 with h5; subst h5; rfl
    injection h4 with h4; subst h4
    rw [trimLoop_cost hz maxLen rest h2, sumLen_cons, List.length_cons]
    show stored s2.log + _ + _ = _
    rw [append_cost h6, e1, hz _ _ _ hd]
    omega

/-- What a write costs: its record and a header, or, if it compacts the file, everything that is live. -/
theorem write_cost {c : Codec} {recLen : Buffer → Nat} (hz : Sized c recLen) {order : List Buffer → List Buffer} (ho : ∀ l, (order l).Perm l)
    {b : Buffer} {dup : Bool} {s s' : WState} {content content' : Bytes} {items items' : List (Option Buffer)}
    (hv : Valid c s content items) (h : WState.write c order b dup s = .done s') (hsh : Shape recLen order b dup s content items s' content' items') :
    (content'.length = content.length + recLen b ∧ s.file.length ≤ s'.file.length ∧ stored s'.log = stored s.log + 8 + recLen b) ∨
    (s.file.length < content.length + 8 + recLen b ∧ (s.needTrim || dup) = true ∧
      content'.length = sumLen recLen (mapStep (intoMap items).1 (some b)).values ∧ s.file.length ≤ s'.file.length ∧
      stored s'.log = stored s.log + 8 + 8 * (mapStep (intoMap items).1 (some b)).values.length +
        sumLen recLen (mapStep (intoMap items).1 (some b)).values) := by
  unfold WState.write at h
  split at h
  · cases h
  rename_i data hd
  have hdl := hz _ _ _ hd
  rw [writeOffset_eq hv.usz hv.mm hv.holds] at h
  simp only [] at h
  generalize hs0 : (if dup = true then { s with needTrim := true } else s) = s0 at h
  have hlog : s0.log = s.log := by rw [← hs0]; split <;> rfl
  have hnt0 : s0.needTrim = (s.needTrim || dup) := by rw [← hs0]; cases dup <;> simp
  have hri : s0.readItems c = s.readItems c := by rw [← hs0]; split <;> rfl
  rw [readItems_eq hv] at hri
  rw [hri, hnt0, hdl, hv.mm] at h
  cases hsh with
  | append hfit hi hc hl ht =>
    left
    obtain ⟨r, hr, rfl⟩ := hc
    rw [if_pos (by omega)] at h
    obtain ⟨y, h1, h2⟩ := andThen_done_iff h
    injection h2 with h2; subst h2
    refine ⟨by simp [hr], by omega, ?_⟩
    show stored y.log = _
    rw [append_cost h1, hlog, hdl]
  | expand hfull hnt hi hc hl ht =>
    left
    obtain ⟨r, hr, rfl⟩ := hc
    rw [if_neg (by omega), hnt] at h
    simp only [Bool.false_eq_true, if_false] at h
    obtain ⟨y, h1, h2⟩ := andThen_done_iff h
    injection h2 with h2; subst h2
    obtain ⟨z, h3, h4⟩ := andThen_done_iff h1
    refine ⟨by simp [hr], by omega, ?_⟩
    show stored y.log = _
    rw [append_cost h4, expand_cost h3, hlog, hdl]
  | trim hfull hnt hi hc hl ht =>
    right
    rw [if_neg (by omega), hnt] at h
    simp only [if_true] at h
    obtain ⟨y, h1, h2⟩ := andThen_done_iff h
    injection h2 with h2; subst h2
    obtain ⟨z, h3, h4⟩ := andThen_done_iff h1
    refine ⟨hfull, hnt, hc, by omega, ?_⟩
    have hp := ho (mapStep (intoMap items).1 (some b)).values
    have e1 : stored z.log = stored s.log + 8 := by rw [← hlog]; exact storeLen_cost h3
    show stored y.log = _
    rw [trimLoop_cost hz _ _ h4, sumLen_perm recLen hp, hp.length_eq]
    show stored z.log + _ + _ = _
    rw [e1]

/-- The size of the record a job writes. -/
def Job.size (recLen : Buffer → Nat) : Job → Nat
  | .write b _ => recLen b
  | .remove => 0

/-- The size of the record of a mutation. -/
def mutSize (recLen : Buffer → Nat) : Mutation → Nat
  | .put k e => recLen ⟨k, e.token, e.bytes⟩
  | .delete k => recLen (Buffer.deleted k)
  | .clear => 0

/-- The records of some jobs. -/
def jobsSize (recLen : Buffer → Nat) (js : List Job) : Nat := (js.map (Job.size recLen)).sum

theorem jobsSize_append (recLen : Buffer → Nat) (a b : List Job) : jobsSize recLen (a ++ b) = jobsSize recLen a + jobsSize recLen b := by
  simp [jobsSize]

/-- What has been stored into the file in a session without `clear_data`.  The file has at least `F` bytes; `R`, `N`: size and number of the
records of all calls; `free`: what is left of the file when everything live is in it; `k`: the compactions so far. -/
structure CInv (E : Env ι) (F L n free C0 R N : Nat) (s : Inst ι) : Prop where
  clr : s.phase.clearing = false
  size : F ≤ s.lp.cb.ws.file.length
  jobs : jobsSize E.recLen s.jobs ≤ R ∧ s.jobs.length ≤ N
  ex : ∃ k, stored s.lp.cb.ws.log ≤ 8 * s.lp.ran.length + jobsSize E.recLen (s.lp.ran.map (·.2)) + k * (8 + 8 * n + L) ∧
    ∀ content items, Valid (E.codecs s.idx) s.lp.cb.ws content items → free * k + content.length ≤ C0 + jobsSize E.recLen (s.lp.ran.map (·.2))

namespace Inst

theorem _root_.Mmkv.CInv.quiet {E : Env ι} {F L n free C0 R N R' N' : Nat} {s s' : Inst ι} (h : CInv E F L n free C0 R N s)
    (hclr : s'.phase.clearing = false) (hcb : s'.lp.cb = s.lp.cb) (hran : s'.lp.ran = s.lp.ran) (hidx : s'.idx = s.idx)
    (hj : jobsSize E.recLen s'.jobs ≤ R' ∧ s'.jobs.length ≤ N') : CInv E F L n free C0 R' N' s' :=
  ⟨hclr, by rw [hcb]; exact h.size, hj, by rw [hcb, hran, hidx]; exact h.ex⟩

theorem cinv_step {E : Env ι} {S0 : Store} {K c0 L n B F free C0 R N : Nat} {cs : List Mutation} {s s' : Inst ι} {e : Ev ι}
    {r : Option (Out Unit)} (hz : ∀ i, Sized (E.codecs i) E.recLen) (h : DInv E S0 K cs s) (hg : GInv E c0 L n B s)
    (hc : CInv E F L n free C0 R N s) (hfree : 8 + L + free ≤ F) (he : e.Ok E) (hnc : e ≠ .clear)
    (hroom : E.Room (K + cs.length)) (hs : step E.codecs s e = some (s', r)) :
    CInv E F L n free C0 (R + (e.call?.toList.map (mutSize E.recLen)).sum) (N + e.call?.toList.length) s' := by
  have hbook := h.book
  obtain ⟨cb0, hcb0, hinv⟩ := hbook.inv
  have hsame : ∀ {x : Inst ι}, x.phase.clearing = false → x.lp.cb = s.lp.cb → x.lp.ran = s.lp.ran → x.idx = s.idx → x.jobs = s.jobs →
      CInv E F L n free C0 (R + (e.call?.toList.map (mutSize E.recLen)).sum) (N + e.call?.toList.length) x := by
    intro x h1 h2 h3 h4 h5
    exact hc.quiet h1 h2 h3 h4 (by rw [h5]; exact ⟨Nat.le_add_right_of_le hc.jobs.1, Nat.le_add_right_of_le hc.jobs.2⟩)
  cases e with
  | put k t bs =>
    simp only [step] at hs
    split at hs
    · cases hs
    rename_i hg'
    have hidle : s.phase = .idle := by cases hp : s.phase <;> simp [hp] at hg' ⊢
    simp only [hbook.poisoned, hbook.valid, hidle, Phase.clearing, Bool.false_eq_true, if_false, Bool.not_false,
      Bool.true_eq_false, Option.some.injEq, Prod.mk.injEq] at hs
    obtain ⟨rfl, rfl⟩ := hs
    have hj : ∀ (x : Inst ι) (j : Job), x.phase = .push j → x.lp = s.lp → x.jobs = s.jobs ++ [j] := by
      intro x j h1 h2; simp [Inst.jobs, hidle, Phase.inflight, h1, h2]
    have hj' := hj { idx := s.idx, kv := s.kv.insert k (Buffer.ofRaw k t bs), phase := .push (.write (Buffer.ofRaw k t bs) (s.kv.get k).isSome), joined := s.joined, lp := s.lp } _ rfl rfl
    refine hc.quiet rfl rfl rfl rfl ?_
    rw [hj', jobsSize_append]
    have h1 := hc.jobs
    refine ⟨?_, by simp [Ev.call?]; omega⟩
    simp only [jobsSize, List.map_cons, List.map_nil, List.sum_cons, List.sum_nil, Job.size, Buffer.ofRaw, Ev.call?, Option.toList, mutSize, Nat.add_zero]
    exact Nat.add_le_add_right h1.1 _
  | delete k =>
    simp only [step] at hs
    split at hs
    · cases hs
    rename_i hg'
    have hidle : s.phase = .idle := by simpa using hg'
    simp only [hbook.poisoned, hbook.valid, hidle, Phase.clearing, Bool.false_eq_true, if_false, Bool.not_false,
      Bool.true_eq_false] at hs
    split at hs
    · simp only [Option.some.injEq, Prod.mk.injEq] at hs
      obtain ⟨rfl, rfl⟩ := hs
      exact hsame hc.clr rfl rfl rfl rfl
    · simp only [Option.some.injEq, Prod.mk.injEq] at hs
      obtain ⟨rfl, rfl⟩ := hs
      have hj : ∀ (x : Inst ι) (j : Job), x.phase = .push j → x.lp = s.lp → x.jobs = s.jobs ++ [j] := by
        intro x j h1 h2; simp [Inst.jobs, hidle, Phase.inflight, h1, h2]
      have hj' := hj { idx := s.idx, kv := s.kv.erase k, phase := .push (.write (Buffer.deleted k) true), joined := s.joined, lp := s.lp } _ rfl rfl
      refine hc.quiet rfl rfl rfl rfl ?_
      rw [hj', jobsSize_append]
      have h1 := hc.jobs
      refine ⟨?_, by simp [Ev.call?]; omega⟩
      simp only [jobsSize, List.map_cons, List.map_nil, List.sum_cons, List.sum_nil, Job.size, Ev.call?, Option.toList, mutSize, Nat.add_zero]
      exact Nat.add_le_add_right h1.1 _
  | clear => exact absurd rfl hnc
  | drop =>
    simp only [step] at hs
    split at hs
    · cases hs
    rename_i hg'
    have hidle : s.phase = .idle := by simpa using hg'
    simp only [Option.some.injEq, Prod.mk.injEq] at hs
    obtain ⟨rfl, rfl⟩ := hs
    exact hsame rfl rfl rfl rfl (by simp [Inst.jobs, hidle, Phase.inflight, Looper.dropSender])
  | io o =>
    simp only [step] at hs
    split at hs
    · cases hs
    rename_i lp hlp
    simp only [Option.some.injEq, Prod.mk.injEq] at hs
    obtain ⟨rfl, rfl⟩ := hs
    have hquiet : lp.cb = s.lp.cb → lp.ran = s.lp.ran → lp.pushed = s.lp.pushed →
        CInv E F L n free C0 (R + ((Ev.io o : Ev ι).call?.toList.map (mutSize E.recLen)).sum) (N + (Ev.io o : Ev ι).call?.toList.length) { s with lp := lp } :=
      fun h1 h2 h3 => hsame hc.clr h1 h2 rfl (by simp [Inst.jobs, h3])
    unfold Looper.ioStep at hlp
    cases hio : s.lp.io with
    | recv =>
      simp only [hio] at hlp
      split at hlp
      · injection hlp with hlp; subst hlp; exact hquiet rfl rfl rfl
      · injection hlp with hlp; subst hlp; exact hquiet rfl rfl rfl
      · split at hlp
        · cases hlp
        · injection hlp with hlp; subst hlp; exact hquiet rfl rfl rfl
    | swap => simp only [hio] at hlp; injection hlp with hlp; subst hlp; exact hquiet rfl rfl rfl
    | unwinding => exact absurd hio h.alive.1
    | exited => simp [hio] at hlp
    | dead => exact absurd hio h.alive.2
    | run =>
      simp only [hio] at hlp
      cases hbuf : s.lp.buf with
      | nil => simp only [hbuf] at hlp; injection hlp with hlp; subst hlp; exact hquiet rfl rfl rfl
      | cons j rest =>
        simp only [hbuf] at hlp
        have hnr := not_removed hbook hbuf
        have hsp := hinv.split
        rw [hbook.late, List.append_nil, hbuf] at hsp
        have hmem : j ∈ s.jobs := by unfold Inst.jobs; rw [← hsp]; simp
        have hjs : ∃ tl, s.jobs = s.lp.ran.map (·.2) ++ j :: tl := by
          unfold Inst.jobs; rw [← hsp]; exact ⟨rest ++ (s.lp.queue ++ s.phase.inflight), by simp only [List.append_assoc, List.cons_append]⟩
        obtain ⟨tl, hjs⟩ := hjs
        have hran : s.lp.ran.length + 1 ≤ s.jobs.length := by rw [hjs]; simp
        obtain ⟨hlen, Sb, hdup, hwin, hkv, hfile⟩ := hg
        obtain ⟨pre, post, K0, content, items, hcs, htr, hwi, hK, hdisk⟩ := h.ex
        cases j with
        | write b dup =>
          obtain ⟨hokb, hlb⟩ := h.jobsOk b dup hmem
          have hle : K0 + s.lp.ran.length + 1 ≤ K + cs.length := by omega
          have hroom' : E.page * (K0 + s.lp.ran.length + 1) + 8 < 2 ^ 64 ∧ E.posOk (K0 + s.lp.ran.length + 1) := by
            refine ⟨?_, (E.lawful s.idx).posOk_mono _ _ hroom.2 hle⟩
            have := Nat.mul_le_mul_left E.page hle
            have := hroom.1
            omega
          obtain ⟨ws', content', items', hwr, hw', hconf, hshape, hmut⟩ := write_done (E.lawful s.idx) o he b dup
            (K0 + s.lp.ran.length) hwi hokb (by rw [h.page]; exact hlb) (by rw [h.page]; exact hroom'.1) hroom'.2
          simp only [execJob, hwr] at hlp
          injection hlp with hlp
          subst hlp
          obtain ⟨hv, hnt⟩ := hfile hnr content items hwi.toValid
          have hmm : ∀ l : List (Order × Job), (l.map (·.2)).map Job.mutation = l.map (·.2.mutation) := by
            intro l; rw [List.map_map]; rfl
          have hwf := (MapWF.intoMap items).mapStep (some b)
          have hvb : view (mapStep (intoMap items).1 (some b)) = Sb.run ((s.jobs.take (s.lp.ran.length + 1)).map Job.mutation) := by
            rw [view_mapStep_some, hv, hjs]
            have : (s.lp.ran.map (·.2) ++ Job.write b dup :: tl).take (s.lp.ran.length + 1) = s.lp.ran.map (·.2) ++ [Job.write b dup] := by
              have e : s.lp.ran.map (·.2) ++ Job.write b dup :: tl = (s.lp.ran.map (·.2) ++ [Job.write b dup]) ++ tl := by simp
              rw [e, List.take_left' (by simp)]
            rw [this, List.map_append, run_append, hmm]
            rfl
          obtain ⟨hnn, hLL⟩ := within_values (recLen := E.recLen) hwf (by rw [hvb]; exact hwin _)
          obtain ⟨k, hk1, hk2⟩ := hc.ex
          have hk2 := hk2 content items hwi.toValid
          have hF := hc.size
          have hcost := write_cost (hz s.idx) he hwi.toValid hwr hshape
          have hrs : jobsSize E.recLen ((s.lp.ran ++ [(o, Job.write b dup)]).map (·.2)) = jobsSize E.recLen (s.lp.ran.map (·.2)) + E.recLen b := by
            rw [List.map_append, jobsSize_append]; simp [jobsSize, Job.size]
          refine ⟨hc.clr, ?_, ?_, ?_⟩
          · rcases hcost with ⟨_, h2, _⟩ | ⟨_, _, _, h2, _⟩ <;> exact Nat.le_trans hF h2
          · exact ⟨Nat.le_add_right_of_le hc.jobs.1, Nat.le_add_right_of_le hc.jobs.2⟩
          · simp only [hrs, List.length_append, List.length_cons, List.length_nil]
            rcases hcost with ⟨h1, h2, h3⟩ | ⟨h1, _, h2, h3, h4⟩
            · refine ⟨k, by omega, fun content'' items'' hval => ?_⟩
              obtain ⟨rfl, rfl⟩ := valid_unique hw'.toValid hval
              omega
            · refine ⟨k + 1, ?_, fun content'' items'' hval => ?_⟩
              · rw [Nat.add_mul, Nat.one_mul]
                omega
              · obtain ⟨rfl, rfl⟩ := valid_unique hw'.toValid hval
                rw [Nat.mul_add, Nat.mul_one]
                omega
        | remove =>
          have := hbook.jobsW hc.clr _ hmem
          simp [Job.isWrite] at this
  | api i =>
    simp only [step] at hs
    have hsd := hbook.sender
    have hclr := hc.clr
    cases hp : s.phase with
    | idle => simp [hp] at hs
    | closed => simp [hp] at hs
    | push j =>
      simp only [hp, Option.some.injEq, Prod.mk.injEq] at hs
      obtain ⟨rfl, rfl⟩ := hs
      have hsd : s.lp.sender = true := by simpa [hp, Phase.open] using hsd
      exact hsame rfl (by simp [Looper.push, hsd]) (by simp [Looper.push, hsd]) rfl (by simp [Inst.jobs, hp, Phase.inflight, Looper.push, hsd])
    | send =>
      have hsd : s.lp.sender = true := by simpa [hp, Phase.open] using hsd
      have hd : ¬ (s.lp.io = .dead ∨ s.lp.io = .exited) := by
        rintro (h' | h')
        · exact h.alive.2 h'
        · simp [(hinv.exitedClosed h').1] at hsd
      simp only [hp, Looper.send, hsd, if_true, hd, if_false, Option.some.injEq, Prod.mk.injEq] at hs
      obtain ⟨rfl, rfl⟩ := hs
      exact hsame rfl rfl rfl rfl (by simp [Inst.jobs, hp, Phase.inflight])
    | clrPush => simp [hp, Phase.clearing] at hclr
    | clrSend => simp [hp, Phase.clearing] at hclr
    | clrQuit => simp [hp, Phase.clearing] at hclr
    | clrJoin => simp [hp, Phase.clearing] at hclr
    | clrOpen => simp [hp, Phase.clearing] at hclr

theorem cinv_run {E : Env ι} {S0 : Store} {K c0 L n B F free C0 : Nat} (hz : ∀ i, Sized (E.codecs i) E.recLen) (hfree : 8 + L + free ≤ F)
    (hB : 8 + c0 + L + E.page * max 1 n ≤ B) (es : List (Ev ι)) : ∀ {cs : List Mutation} {s s' : Inst ι} {rs : List (Out Unit)} {R N : Nat},
    DInv E S0 K cs s → GInv E c0 L n B s → CInv E F L n free C0 R N s → (∀ e ∈ es, e.Ok E) → (∀ e ∈ es, e ≠ .clear) →
    E.Room (K + cs.length + (calls es).length) → run E.codecs s es = some (s', rs) →
    (∀ m, Store.Within (entrySize E.recLen) n L (S0.run (cs ++ (calls es).take m))) →
    CInv E F L n free C0 (R + ((calls es).map (mutSize E.recLen)).sum) (N + (calls es).length) s' := by
  induction es with
  | nil =>
    intro cs s s' rs R N _ _ hc _ _ _ hs _
    simp only [run, Option.some.injEq, Prod.mk.injEq] at hs
    obtain ⟨rfl, rfl⟩ := hs
    exact hc
  | cons e es ih =>
    intro cs s s' rs R N h hg hc he hnc hroom hs hw
    unfold run at hs
    split at hs
    · cases hs
    rename_i s1 r1 hs1
    split at hs
    · cases hs
    rename_i s2 rs2 hs2
    simp only [Option.some.injEq, Prod.mk.injEq] at hs
    obtain ⟨rfl, rfl⟩ := hs
    have hne : Nonempty ι := ⟨s.idx⟩
    have hcl := calls_cons e es
    have hr1 : E.Room (K + cs.length) := hroom.mono (by omega)
    obtain ⟨_, hd1⟩ := dinv_step h (he e List.mem_cons_self) hr1 hs1
    have hw1 : Store.Within (entrySize E.recLen) n L (S0.run (cs ++ e.call?.toList)) := by
      have := hw e.call?.toList.length
      rw [hcl, List.take_left' rfl] at this
      exact this
    have hg1 := ginv_step h hg (he e List.mem_cons_self) hr1 hs1 hw1 hB
    have hc1 := cinv_step hz h hg hc hfree (he e List.mem_cons_self) (hnc e List.mem_cons_self) hr1 hs1
    have := ih hd1 hg1 hc1 (fun x hx => he x (List.mem_cons_of_mem _ hx)) (fun x hx => hnc x (List.mem_cons_of_mem _ hx)) (by
      rw [hcl] at hroom
      simpa [Nat.add_assoc] using hroom) hs2 (by
      intro m
      have := hw (e.call?.toList.length + m)
      rw [hcl, List.take_length_add_append] at this
      simpa using this)
    rw [hcl, List.map_append, List.sum_append, List.length_append]
    simpa [Nat.add_assoc] using this

end Inst
end Mmkv
