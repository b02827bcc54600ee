import Verif.Lemmas.Cost
/-! What stays in the data file while there is room to append. -/

namespace Mmkv
open Spec
variable {ι : Type}

/-- A session without `clear_data` in which no compaction has happened: `C0` the length of the content at the start and `items0` its records,
`R` the size of the records of all calls `cs`, `F` a lower bound of the size of the file. -/
structure RInv (E : Env ι) (i0 : ι) (F C0 : Nat) (items0 : List (Option Buffer)) (R : Nat) (cs : List Mutation) (s : Inst ι) : Prop where
  clr : s.phase.clearing = false
  ix : s.idx = i0
  size : F ≤ s.lp.cb.ws.file.length
  jobs : jobsSize E.recLen s.jobs ≤ R
  puts : ∀ k e, .put k e ∈ cs → ∃ dup, Job.write ⟨k, e.token, e.bytes⟩ dup ∈ s.jobs
  kept : ∀ content items, Valid (E.codecs s.idx) s.lp.cb.ws content items → content.length = C0 + jobsSize E.recLen (s.lp.ran.map (·.2)) ∧
    (∀ x ∈ items0, x ∈ items) ∧ ∀ b dup, Job.write b dup ∈ s.lp.ran.map (·.2) → some b ∈ items

namespace Inst

theorem _root_.Mmkv.RInv.quiet {E : Env ι} {i0 : ι} {F C0 R R' : Nat} {items0 : List (Option Buffer)} {cs cs' : List Mutation} {s s' : Inst ι}
    (h : RInv E i0 F C0 items0 R cs s) (hclr : s'.phase.clearing = false) (hcb : s'.lp.cb = s.lp.cb) (hran : s'.lp.ran = s.lp.ran)
    (hidx : s'.idx = s.idx) (hj : jobsSize E.recLen s'.jobs ≤ R')
    (hp : ∀ k e, .put k e ∈ cs' → ∃ dup, Job.write ⟨k, e.token, e.bytes⟩ dup ∈ s'.jobs) : RInv E i0 F C0 items0 R' cs' s' :=
  ⟨hclr, by rw [hidx]; exact h.ix, by rw [hcb]; exact h.size, hj, hp, by rw [hcb, hran, hidx]; exact h.kept⟩

theorem rinv_step {E : Env ι} {i0 : ι} {S0 : Store} {K F C0 R T : Nat} {items0 : List (Option Buffer)} {cs : List Mutation} {s s' : Inst ι} {e : Ev ι}
    {r : Option (Out Unit)} (h : DInv E S0 K cs s)
    (hc : RInv E i0 F C0 items0 R cs s) (hT : 8 + C0 + T ≤ F) (hR : R ≤ T) (he : e.Ok E) (hnc : e ≠ .clear)
    (hroom : E.Room (K + cs.length)) (hs : step E.codecs s e = some (s', r)) :
    RInv E i0 F C0 items0 (R + (e.call?.toList.map (mutSize E.recLen)).sum) (cs ++ e.call?.toList) s' := by
  have hbook := h.book
  obtain ⟨cb0, hcb0, hinv⟩ := hbook.inv
  have hputs0 : ∀ (js : List Job), s.jobs <+: js → ∀ k e, Mutation.put k e ∈ cs → ∃ dup, Job.write ⟨k, e.token, e.bytes⟩ dup ∈ js := by
    intro js hj k e hm
    obtain ⟨dup, hd⟩ := hc.puts k e hm
    exact ⟨dup, hj.subset hd⟩
  have hsame : ∀ {x : Inst ι}, (∀ k en, e.call? ≠ some (.put k en)) → x.phase.clearing = false → x.lp.cb = s.lp.cb → x.lp.ran = s.lp.ran →
      x.idx = s.idx → x.jobs = s.jobs →
      RInv E i0 F C0 items0 (R + (e.call?.toList.map (mutSize E.recLen)).sum) (cs ++ e.call?.toList) x := by
    intro x h0 h1 h2 h3 h4 h5
    refine hc.quiet h1 h2 h3 h4 (by rw [h5]; exact Nat.le_add_right_of_le hc.jobs) ?_
    intro k en hm
    rcases List.mem_append.1 hm with hm | hm
    · exact hputs0 _ (by rw [h5]; exact List.prefix_refl _) k en hm
    · cases hcall : e.call? with
      | none => simp [hcall] at hm
      | some m =>
        simp only [hcall, Option.toList, List.mem_singleton] at hm
        exact absurd (by rw [hcall, hm]) (h0 k en)
  cases e with
  | put k t bs =>
    simp only [step] at hs
    split at hs
    · cases hs
    rename_i hg'
    have hidle : s.phase = .idle := by cases hp : s.phase <;> simp [hp] at hg' ⊢
    simp only [hbook.poisoned, hbook.valid, hidle, Phase.clearing, Bool.false_eq_true, if_false, Bool.not_false,
      Bool.true_eq_false, Option.some.injEq, Prod.mk.injEq] at hs
    obtain ⟨rfl, rfl⟩ := hs
    have hj : ∀ (x : Inst ι) (j : Job), x.phase = .push j → x.lp = s.lp → x.jobs = s.jobs ++ [j] := by
      intro x j h1 h2; simp [Inst.jobs, hidle, Phase.inflight, h1, h2]
    have hj' := hj { idx := s.idx, kv := s.kv.insert k (Buffer.ofRaw k t bs), phase := .push (.write (Buffer.ofRaw k t bs) (s.kv.get k).isSome), joined := s.joined, lp := s.lp } _ rfl rfl
    refine hc.quiet rfl rfl rfl rfl ?_ ?_
    · rw [hj', jobsSize_append]
      simp only [jobsSize, List.map_cons, List.map_nil, List.sum_cons, List.sum_nil, Job.size, Buffer.ofRaw, Ev.call?, Option.toList, mutSize, Nat.add_zero]
      exact Nat.add_le_add_right hc.jobs _
    · rw [hj']
      intro k' e' hm
      rcases List.mem_append.1 hm with hm | hm
      · exact hputs0 _ ⟨_, rfl⟩ k' e' hm
      · simp only [Ev.call?, Option.toList, List.mem_singleton, Mutation.put.injEq] at hm
        obtain ⟨rfl, rfl⟩ := hm
        exact ⟨(s.kv.get k').isSome, by simp [Buffer.ofRaw]⟩
  | delete k =>
    simp only [step] at hs
    split at hs
    · cases hs
    rename_i hg'
    have hidle : s.phase = .idle := by simpa using hg'
    simp only [hbook.poisoned, hbook.valid, hidle, Phase.clearing, Bool.false_eq_true, if_false, Bool.not_false,
      Bool.true_eq_false] at hs
    split at hs
    · simp only [Option.some.injEq, Prod.mk.injEq] at hs
      obtain ⟨rfl, rfl⟩ := hs
      exact hsame (by simp [Ev.call?]) hc.clr rfl rfl rfl rfl
    · simp only [Option.some.injEq, Prod.mk.injEq] at hs
      obtain ⟨rfl, rfl⟩ := hs
      have hj : ∀ (x : Inst ι) (j : Job), x.phase = .push j → x.lp = s.lp → x.jobs = s.jobs ++ [j] := by
        intro x j h1 h2; simp [Inst.jobs, hidle, Phase.inflight, h1, h2]
      have hj' := hj { idx := s.idx, kv := s.kv.erase k, phase := .push (.write (Buffer.deleted k) true), joined := s.joined, lp := s.lp } _ rfl rfl
      refine hc.quiet rfl rfl rfl rfl ?_ ?_
      · rw [hj', jobsSize_append]
        simp only [jobsSize, List.map_cons, List.map_nil, List.sum_cons, List.sum_nil, Job.size, Ev.call?, Option.toList, mutSize, Nat.add_zero]
        exact Nat.add_le_add_right hc.jobs _
      · rw [hj']
        intro k' e' hm
        rcases List.mem_append.1 hm with hm | hm
        · exact hputs0 _ ⟨_, rfl⟩ k' e' hm
        · simp [Ev.call?] at hm
  | clear => exact absurd rfl hnc
  | drop =>
    simp only [step] at hs
    split at hs
    · cases hs
    rename_i hg'
    have hidle : s.phase = .idle := by simpa using hg'
    simp only [Option.some.injEq, Prod.mk.injEq] at hs
    obtain ⟨rfl, rfl⟩ := hs
    exact hsame (by simp [Ev.call?]) rfl rfl rfl rfl (by simp [Inst.jobs, hidle, Phase.inflight, Looper.dropSender])
  | io o =>
    simp only [step] at hs
    split at hs
    · cases hs
    rename_i lp hlp
    simp only [Option.some.injEq, Prod.mk.injEq] at hs
    obtain ⟨rfl, rfl⟩ := hs
    have hquiet : lp.cb = s.lp.cb → lp.ran = s.lp.ran → lp.pushed = s.lp.pushed →
        RInv E i0 F C0 items0 (R + ((Ev.io o : Ev ι).call?.toList.map (mutSize E.recLen)).sum) (cs ++ (Ev.io o : Ev ι).call?.toList) { s with lp := lp } :=
      fun h1 h2 h3 => hsame (by simp [Ev.call?]) hc.clr h1 h2 rfl (by simp [Inst.jobs, h3])
    unfold Looper.ioStep at hlp
    cases hio : s.lp.io with
    | recv =>
      simp only [hio] at hlp
      split at hlp
      · injection hlp with hlp; subst hlp; exact hquiet rfl rfl rfl
      · injection hlp with hlp; subst hlp; exact hquiet rfl rfl rfl
      · split at hlp
        · cases hlp
        · injection hlp with hlp; subst hlp; exact hquiet rfl rfl rfl
    | swap => simp only [hio] at hlp; injection hlp with hlp; subst hlp; exact hquiet rfl rfl rfl
    | unwinding => exact absurd hio h.alive.1
    | exited => simp [hio] at hlp
    | dead => exact absurd hio h.alive.2
    | run =>
      simp only [hio] at hlp
      cases hbuf : s.lp.buf with
      | nil => simp only [hbuf] at hlp; injection hlp with hlp; subst hlp; exact hquiet rfl rfl rfl
      | cons j rest =>
        simp only [hbuf] at hlp
        have hsp := hinv.split
        rw [hbook.late, List.append_nil, hbuf] at hsp
        have hmem : j ∈ s.jobs := by unfold Inst.jobs; rw [← hsp]; simp
        have hjs : ∃ tl, s.jobs = s.lp.ran.map (·.2) ++ j :: tl := by
          unfold Inst.jobs; rw [← hsp]; exact ⟨rest ++ (s.lp.queue ++ s.phase.inflight), by simp only [List.append_assoc, List.cons_append]⟩
        obtain ⟨tl, hjs⟩ := hjs
        have hran : s.lp.ran.length + 1 ≤ s.jobs.length := by rw [hjs]; simp
        obtain ⟨pre, post, K0, content, items, hcs, htr, hwi, hK, hdisk⟩ := h.ex
        cases j with
        | write b dup =>
          obtain ⟨hokb, hlb⟩ := h.jobsOk b dup hmem
          have hle : K0 + s.lp.ran.length + 1 ≤ K + cs.length := by omega
          have hroom' : E.page * (K0 + s.lp.ran.length + 1) + 8 < 2 ^ 64 ∧ E.posOk (K0 + s.lp.ran.length + 1) := by
            refine ⟨?_, (E.lawful s.idx).posOk_mono _ _ hroom.2 hle⟩
            have := Nat.mul_le_mul_left E.page hle
            have := hroom.1
            omega
          obtain ⟨ws', content', items', hwr, hw', hconf, hshape, hmut⟩ := write_done (E.lawful s.idx) o he b dup
            (K0 + s.lp.ran.length) hwi hokb (by rw [h.page]; exact hlb) (by rw [h.page]; exact hroom'.1) hroom'.2
          simp only [execJob, hwr] at hlp
          injection hlp with hlp
          subst hlp
          obtain ⟨hk1, hk2, hk3⟩ := hc.kept content items hwi.toValid
          have hF := hc.size
          have hrs : jobsSize E.recLen ((s.lp.ran ++ [(o, Job.write b dup)]).map (·.2)) = jobsSize E.recLen (s.lp.ran.map (·.2)) + E.recLen b := by
            rw [List.map_append, jobsSize_append]; simp [jobsSize, Job.size]
          have hle2 : jobsSize E.recLen (s.lp.ran.map (·.2)) + E.recLen b ≤ R := by
            have := hc.jobs
            rw [hjs, jobsSize_append] at this
            have h2 : E.recLen b ≤ jobsSize E.recLen (Job.write b dup :: tl) := by simp [jobsSize, Job.size]
            omega
          have happ : items' = items ++ [some b] ∧ content'.length = content.length + E.recLen b ∧ ws'.file.length = s.lp.cb.ws.file.length := by
            cases hshape with
            | append hfit hi hcc hl ht =>
              obtain ⟨r, hr, rfl⟩ := hcc
              exact ⟨hi, by simp [hr], hl⟩
            | expand hfull => omega
            | trim hfull => omega
          obtain ⟨hi', hc', hl'⟩ := happ
          refine ⟨hc.clr, hc.ix, ?_, Nat.le_add_right_of_le hc.jobs, ?_, ?_⟩
          · show F ≤ ws'.file.length
            omega
          · intro k' e' hm
            simp only [Ev.call?, Option.toList, List.append_nil] at hm
            exact hputs0 _ (List.prefix_refl _) k' e' hm
          · intro content'' items'' hval
            obtain ⟨rfl, rfl⟩ := valid_unique hw'.toValid hval
            refine ⟨?_, ?_, ?_⟩
            · show _ = C0 + jobsSize E.recLen ((s.lp.ran ++ [(o, Job.write b dup)]).map (·.2))
              rw [hrs]; omega
            · intro x hx; rw [hi']; exact List.mem_append_left _ (hk2 x hx)
            · intro b' dup' hm
              rw [hi']
              have hm : Job.write b' dup' ∈ (s.lp.ran ++ [(o, Job.write b dup)]).map (·.2) := hm
              rw [List.map_append] at hm
              rcases List.mem_append.1 hm with hm | hm
              · exact List.mem_append_left _ (hk3 b' dup' hm)
              · simp at hm
                simp [hm.1]
        | remove =>
          have := hbook.jobsW hc.clr _ hmem
          simp [Job.isWrite] at this
  | api i =>
    simp only [step] at hs
    have hsd := hbook.sender
    have hclr := hc.clr
    have hcall : ∀ k en, (Ev.api i : Ev ι).call? ≠ some (.put k en) := by simp [Ev.call?]
    cases hp : s.phase with
    | idle => simp [hp] at hs
    | closed => simp [hp] at hs
    | push j =>
      simp only [hp, Option.some.injEq, Prod.mk.injEq] at hs
      obtain ⟨rfl, rfl⟩ := hs
      have hsd : s.lp.sender = true := by simpa [hp, Phase.open] using hsd
      exact hsame hcall rfl (by simp [Looper.push, hsd]) (by simp [Looper.push, hsd]) rfl (by simp [Inst.jobs, hp, Phase.inflight, Looper.push, hsd])
    | send =>
      have hsd : s.lp.sender = true := by simpa [hp, Phase.open] using hsd
      have hd : ¬ (s.lp.io = .dead ∨ s.lp.io = .exited) := by
        rintro (h' | h')
        · exact h.alive.2 h'
        · simp [(hinv.exitedClosed h').1] at hsd
      simp only [hp, Looper.send, hsd, if_true, hd, if_false, Option.some.injEq, Prod.mk.injEq] at hs
      obtain ⟨rfl, rfl⟩ := hs
      exact hsame hcall rfl rfl rfl rfl (by simp [Inst.jobs, hp, Phase.inflight])
    | clrPush => simp [hp, Phase.clearing] at hclr
    | clrSend => simp [hp, Phase.clearing] at hclr
    | clrQuit => simp [hp, Phase.clearing] at hclr
    | clrJoin => simp [hp, Phase.clearing] at hclr
    | clrOpen => simp [hp, Phase.clearing] at hclr

theorem rinv_run {E : Env ι} {i0 : ι} {S0 : Store} {K F C0 T : Nat} {items0 : List (Option Buffer)}
    (hT : 8 + C0 + T ≤ F) (es : List (Ev ι)) : ∀ {cs : List Mutation} {s s' : Inst ι} {rs : List (Out Unit)} {R : Nat},
    DInv E S0 K cs s → RInv E i0 F C0 items0 R cs s → (∀ e ∈ es, e.Ok E) → (∀ e ∈ es, e ≠ .clear) →
    E.Room (K + cs.length + (calls es).length) → R + ((calls es).map (mutSize E.recLen)).sum ≤ T → run E.codecs s es = some (s', rs) →
    RInv E i0 F C0 items0 (R + ((calls es).map (mutSize E.recLen)).sum) (cs ++ calls es) s' := by
  induction es with
  | nil =>
    intro cs s s' rs R _ hc _ _ _ _ hs
    simp only [run, Option.some.injEq, Prod.mk.injEq] at hs
    obtain ⟨rfl, rfl⟩ := hs
    simpa using hc
  | cons e es ih =>
    intro cs s s' rs R h hc he hnc hroom hR hs
    unfold run at hs
    split at hs
    · cases hs
    rename_i s1 r1 hs1
    split at hs
    · cases hs
    rename_i s2 rs2 hs2
    simp only [Option.some.injEq, Prod.mk.injEq] at hs
    obtain ⟨rfl, rfl⟩ := hs
    have hne : Nonempty ι := ⟨s.idx⟩
    have hcl := calls_cons e es
    have hr1 : E.Room (K + cs.length) := hroom.mono (by omega)
    rw [hcl, List.map_append, List.sum_append] at hR
    obtain ⟨_, hd1⟩ := dinv_step h (he e List.mem_cons_self) hr1 hs1
    have hc1 := rinv_step h hc hT (by omega) (he e List.mem_cons_self) (hnc e List.mem_cons_self) hr1 hs1
    have := ih hd1 hc1 (fun x hx => he x (List.mem_cons_of_mem _ hx)) (fun x hx => hnc x (List.mem_cons_of_mem _ hx)) (by
      rw [hcl] at hroom
      simpa [Nat.add_assoc] using hroom) (by omega) hs2
    rw [hcl, List.map_append, List.sum_append]
    simpa [Nat.add_assoc] using this

theorem mem_of_shown' : ∀ {items : List (Option Buffer)} {S : Store} {k : String} {e : Entry}, S.run (mutations items) k = some e →
    S k = some e ∨ some ⟨k, e.token, e.bytes⟩ ∈ items := by
  intro items
  induction items with
  | nil => intro S k e h; exact .inl h
  | cons x items ih =>
    intro S k e h
    cases x with
    | none =>
      have : mutations (none :: items) = mutations items := by simp [mutations]
      rw [this] at h
      exact (ih h).imp id (List.mem_cons_of_mem _)
    | some b =>
      have : mutations (some b :: items) = b.mutation :: mutations items := by simp [mutations]
      rw [this] at h
      rcases ih (S := S.apply b.mutation) h with h | h
      · unfold Buffer.mutation at h
        by_cases hb : b.isDeleting = true
        · rw [if_pos hb] at h
          simp only [Store.apply] at h
          split at h
          · cases h
          · exact .inl h
        · rw [if_neg hb] at h
          simp only [Store.apply] at h
          split at h
          · rename_i hk
            injection h with h
            subst h; subst hk
            right
            simp [Buffer.entry]
          · exact .inl h
      · exact .inr (List.mem_cons_of_mem _ h)

/-- A value shown by the records of a file has its record among them. -/
theorem mem_of_shown {items : List (Option Buffer)} {k : String} {e : Entry} (h : Store.empty.run (mutations items) k = some e) :
    some ⟨k, e.token, e.bytes⟩ ∈ items := by
  rcases mem_of_shown' h with h | h
  · cases h
  · exact h

/-- A store just opened. -/
theorem rinv_open {E : Env ι} {i : ι} {K : Nat} {file : Bytes} {S : Store} {s0 : Inst ι}
    (hg : GoodFile E (E.codecs i) K file S) (hopen : openAt E.codecs i E.page file = some s0) :
    ∃ items0, Store.empty.run (mutations items0) = S ∧
      RInv E i (if file.length = 0 then E.page else file.length) (beVal (file.take 8)) items0 0 [] s0 := by
  obtain ⟨o, content0, items0, ho, hv, hw, hS, hp, hn⟩ := openStore_good hg
  have hs0 : s0 = { idx := i, kv := o.kv, lp := Looper.new { ws := o.ws } } := by
    unfold openAt at hopen; rw [ho] at hopen; injection hopen with hopen; exact hopen.symm
  have hcfg : o.ws.file = configNew E.page file := by
    unfold openStore at ho
    simp only [] at ho
    split at ho
    · cases ho
    split at ho
    · cases ho
    injection ho with ho
    rw [← ho]
  have hlen0 : content0.length = beVal (file.take 8) := by
    rw [← hw.holds.header, hcfg]
    unfold configNew
    split
    · rename_i h0
      have : file = [] := List.length_eq_zero_iff.1 h0
      subst this
      have h8 := E.page8
      have : (zeros E.page).take 8 = zeros 8 := by
        simp only [zeros, List.take_replicate]; congr 1; omega
      rw [this]; decide
    · rfl
  have hsz0 : o.ws.file.length = if file.length = 0 then E.page else file.length := by
    rw [hcfg]; unfold configNew; split <;> simp [zeros]
  have hr0 : RInv E i (if file.length = 0 then E.page else file.length) (beVal (file.take 8)) items0 0 [] s0 := by
    subst hs0
    refine ⟨rfl, rfl, by rw [← hsz0]; exact Nat.le_refl _, by simp [jobs, Looper.new, Phase.inflight, jobsSize], by simp, ?_⟩
    intro content items hval
    obtain ⟨rfl, rfl⟩ := valid_unique hw.toValid hval
    exact ⟨by simp [Looper.new, jobsSize, hlen0], fun x hx => hx, by simp [Looper.new]⟩
  exact ⟨items0, hS, hr0⟩

/-- While the records of a session without `clear_data` fit the file, they are only appended: after a clean close, the records of
everything the session found at the start, and of everything put since, are in the file. -/
theorem remains {E : Env ι} {i : ι} {K : Nat} {file : Bytes} {S : Store} {s0 s : Inst ι} {es : List (Ev ι)} {rs : List (Out Unit)}
    (hg : GoodFile E (E.codecs i) K file S) (hopen : openAt E.codecs i E.page file = some s0)
    (hrun : run E.codecs s0 es = some (s, rs)) (hok : ∀ e ∈ es, e.Ok E) (hnc : ∀ e ∈ es, e ≠ .clear)
    (hroom : E.Room (K + (calls es).length))
    (hfit : 8 + beVal (file.take 8) + ((calls es).map (mutSize E.recLen)).sum ≤ if file.length = 0 then E.page else file.length)
    (hcl : s.closedOk) :
    (∀ r ∈ rs, r = .ok ()) ∧ ∃ content items, Holds s.disk content ∧ Framed (E.codecs i) 0 content items ∧ (none ∈ items → E.dirty) ∧
      (∀ k e, S k = some e → some ⟨k, e.token, e.bytes⟩ ∈ items) ∧
      (∀ k e, .put k e ∈ calls es → some ⟨k, e.token, e.bytes⟩ ∈ items) ∧ Store.empty.run (mutations items) = S.run (calls es) := by
  obtain ⟨s1, hs1, hd1, hidx1⟩ := dinv_open hg
  rw [hopen] at hs1
  injection hs1 with hs1
  subst hs1
  have hroom' : E.Room (K + ([] : List Mutation).length + (calls es).length) := by simpa using hroom
  obtain ⟨hr, hd⟩ := dinv_run es hd1 hok hroom' hrun
  rw [List.nil_append] at hd
  obtain ⟨items0, hS, hr0⟩ := rinv_open hg hopen
  have hri := rinv_run hfit es hd1 hr0 hok hnc hroom' (by omega) hrun
  rw [List.nil_append] at hri
  obtain ⟨cb0, _, hinv⟩ := hd.book.inv
  obtain ⟨hph, hex⟩ := hcl
  have hpre := hinv.exited_all hex
  have hpre2 := hinv.ran_prefix
  rw [hd.book.late, List.append_nil] at hpre2
  have heq : s.lp.ran.map (·.2) = s.lp.pushed := hpre2.eq_of_length_le hpre.length_le
  have hjobs : s.jobs = s.lp.ran.map (·.2) := by simp [jobs, hph, Phase.inflight, heq]
  obtain ⟨hnr, _⟩ := disk_drained hd hri.clr hjobs
  have hdisk : s.disk = s.lp.cb.ws.file := by simp [disk, hnr]
  have hidx : s.idx = i := hri.ix
  obtain ⟨pre, post, K0, content, items, hcs, htr, hwi, hK, hdk, hnn⟩ := hd.ex
  obtain ⟨_, hk2, hk3⟩ := hri.kept content items hwi.toValid
  refine ⟨hr, content, items, by rw [hdisk]; exact hwi.holds, by rw [← hidx]; exact hwi.framed, hnn, ?_, ?_, ?_⟩
  · intro k e hSk
    rw [← hS] at hSk
    exact hk2 _ (mem_of_shown hSk)
  · intro k e hm
    obtain ⟨dup, hd'⟩ := hri.puts k e hm
    rw [hjobs] at hd'
    exact hk3 _ dup hd'
  · rw [hdk hnr, hcs, run_append, htr.run_eq, hjobs, List.map_map]
    rfl

end Inst
end Mmkv
