import Verif.Lemmas.Instance
/-! What is on disk is a prefix of the calls, and all of them once the thread has drained. -/

namespace Mmkv
open Spec

variable {ι : Type}

/-- A codec family with its laws, and a page size. -/
structure Env (ι : Type) where
  codecs : ι → Codec
  okB : Buffer → Prop
  posOk : Nat → Prop
  recLen : Buffer → Nat
  page : Nat
  lawful : ∀ i, LawfulCodec (codecs i) okB posOk recLen
  page8 : 8 ≤ page
  /-- the file may have been written by other means than this code, and hold undecodable records -/
  dirty : Prop

/-- The records of a call fit one page, and hash map orders are permutations. -/
def Ev.Ok (E : Env ι) : Ev ι → Prop
  | .put k t bs => E.okB (Buffer.ofRaw k t bs) ∧ E.recLen (Buffer.ofRaw k t bs) ≤ E.page
  | .delete k => E.okB (Buffer.deleted k) ∧ E.recLen (Buffer.deleted k) ≤ E.page
  | .io o => ∀ l, (o l).Perm l
  | _ => True

/-- At most `n` records fit the arithmetic of the code. -/
def Env.Room (E : Env ι) (n : Nat) : Prop := E.page * n + 8 < 2 ^ 64 ∧ E.posOk n

theorem Env.Room.mono {E : Env ι} [Nonempty ι] {n m : Nat} (h : E.Room n) (hm : m ≤ n) : E.Room m := by
  obtain ⟨i⟩ := ‹Nonempty ι›
  refine ⟨?_, (E.lawful i).posOk_mono _ _ h.2 hm⟩
  have := Nat.mul_le_mul_left E.page hm
  have := h.1
  omega

theorem WInv.mono {c : Codec} {okB : Buffer → Prop} {recLen : Buffer → Nat} {foreign : Prop} {K K' : Nat} {s : WState}
    {content : Bytes} {items : List (Option Buffer)} (h : WInv c okB recLen foreign K s content items) (hk : K ≤ K') :
    WInv c okB recLen foreign K' s content items :=
  ⟨h.toValid, h.quota, h.bufs, h.fits, Nat.le_trans h.count hk, Nat.le_trans h.size (Nat.mul_le_mul_left _ hk)⟩

/-- A data file (`[]`: missing or empty) that holds at most `K` whole records of at most a page, and stands for
the map `S`. -/
inductive GoodFile (E : Env ι) (c : Codec) (K : Nat) : Bytes → Store → Prop
  | empty : GoodFile E c K [] Store.empty
  | held {file content items} (hh : Holds file content) (hf : Framed c 0 content items)
      (hb : ∀ b, some b ∈ items → E.okB b)
      (hsz : (E.dirty ∧ ∀ b, some b ∈ items → E.recLen b ≤ E.page) ∨ recSum E.recLen items ≤ content.length) (hk : items.length ≤ K)
      (hs : content.length ≤ E.page * K) (hn : none ∈ items → E.dirty) : GoodFile E c K file (Store.empty.run (mutations items))

theorem openStore_good {E : Env ι} {c : Codec} {K : Nat} {file : Bytes} {S : Store} (h : GoodFile E c K file S) :
    ∃ o content items, openStore c E.page file 8 none = some o ∧ view o.kv = S ∧
      WInv c E.okB E.recLen E.dirty K o.ws content items ∧ Store.empty.run (mutations items) = S ∧ o.ws.page = E.page ∧
      (none ∈ items → E.dirty) := by
  cases h with
  | empty =>
    refine ⟨_, [], [], openStore_nil c E.page E.page8 none, view_nil, ⟨⟨rfl, by simp [zeros], ⟨by simp, _, zeros_eq _ E.page8⟩, .nil _, rfl⟩,
      rfl, by simp, .inr (by simp [recSum, sumLen]), by simp, by simp⟩, rfl, rfl, by simp⟩
  | held hh hf hb hsz hk hs hn =>
    rename_i content items
    have hlen := hh.len
    have hconf : configNew E.page file = file := by
      unfold configNew; rw [if_neg (by omega)]
    have hv : Valid c { file := file, mmLen := file.length, page := E.page, position := items.length, needTrim := false,
                        usizeBytes := 8, quota := none, log := [] } content items :=
      ⟨rfl, rfl, hh, hf, rfl⟩
    have hread : WState.readItems { file := file, mmLen := file.length, page := E.page, position := 0, needTrim := false,
                                    usizeBytes := 8, quota := none, log := [] } c = some items := by
      have := readItems_eq hv
      exact this
    refine ⟨⟨(intoMap items).1, { file := file, mmLen := file.length, page := E.page, position := items.length, needTrim := false,
                                  usizeBytes := 8, quota := none, log := [] }⟩, content, items, ?_, view_intoMap items,
      ⟨hv, rfl, hb, hsz, hk, hs⟩, rfl, rfl, hn⟩
    unfold openStore
    simp only [hconf]
    rw [if_neg (by omega), hread]
    rfl

/-- Invariant of a store whose records all fit: calls so far `cs`, initial map `S0`, initial record bound `K`. -/
structure DInv (E : Env ι) (S0 : Store) (K : Nat) (cs : List Mutation) (s : Inst ι) : Prop where
  book : Book E.codecs s
  alive : s.lp.io ≠ .unwinding ∧ s.lp.io ≠ .dead
  page : s.lp.cb.ws.page = E.page
  kvView : view s.kv = S0.run cs
  jobsOk : ∀ b dup, Job.write b dup ∈ s.jobs → E.okB b ∧ E.recLen b ≤ E.page
  ex : ∃ pre post K0 content items, cs = pre ++ post ∧
    Track (S0.run pre) post (s.jobs.map Job.mutation) ∧
    WInv (E.codecs s.idx) E.okB E.recLen E.dirty (K0 + s.lp.ran.length) s.lp.cb.ws content items ∧
    K0 + s.jobs.length ≤ K + cs.length ∧
    (s.lp.cb.removed = false →
      Store.empty.run (mutations items) = (S0.run pre).run (s.lp.ran.map (·.2.mutation))) ∧
    (none ∈ items → E.dirty)

/-- The same with the calls that earlier generations of the thread (before a `clear_data`) have dealt with named: `pre`. -/
structure DAt (E : Env ι) (S0 : Store) (K : Nat) (pre cs : List Mutation) (s : Inst ι) : Prop where
  book : Book E.codecs s
  alive : s.lp.io ≠ .unwinding ∧ s.lp.io ≠ .dead
  page : s.lp.cb.ws.page = E.page
  kvView : view s.kv = S0.run cs
  jobsOk : ∀ b dup, Job.write b dup ∈ s.jobs → E.okB b ∧ E.recLen b ≤ E.page
  ex : ∃ post K0 content items, cs = pre ++ post ∧
    Track (S0.run pre) post (s.jobs.map Job.mutation) ∧
    WInv (E.codecs s.idx) E.okB E.recLen E.dirty (K0 + s.lp.ran.length) s.lp.cb.ws content items ∧
    K0 + s.jobs.length ≤ K + cs.length ∧
    (s.lp.cb.removed = false →
      Store.empty.run (mutations items) = (S0.run pre).run (s.lp.ran.map (·.2.mutation))) ∧
    (none ∈ items → E.dirty)

theorem DAt.dinv {E : Env ι} {S0 : Store} {K : Nat} {pre cs : List Mutation} {s : Inst ι} (h : DAt E S0 K pre cs s) :
    DInv E S0 K cs s :=
  ⟨h.book, h.alive, h.page, h.kvView, h.jobsOk, pre, h.ex⟩

theorem DInv.dat {E : Env ι} {S0 : Store} {K : Nat} {cs : List Mutation} {s : Inst ι} (h : DInv E S0 K cs s) :
    ∃ pre, DAt E S0 K pre cs s :=
  let ⟨pre, he⟩ := h.ex
  ⟨pre, h.book, h.alive, h.page, h.kvView, h.jobsOk, he⟩

namespace Inst

theorem dinv_open {E : Env ι} {i : ι} {K : Nat} {file : Bytes} {S : Store} (h : GoodFile E (E.codecs i) K file S) :
    ∃ s, openAt E.codecs i E.page file = some s ∧ DInv E S K [] s ∧ s.idx = i := by
  obtain ⟨o, content, items, ho, hv, hw, hS, hp, hn⟩ := openStore_good h
  have hopen : openAt E.codecs i E.page file = some { idx := i, kv := o.kv, lp := Looper.new { ws := o.ws } } := by
    unfold openAt; rw [ho]
  refine ⟨_, hopen, ⟨book_open hopen, by simp [Looper.new], hp, by simpa [Store.run] using hv, by simp [jobs, Looper.new, Phase.inflight], ?_⟩, rfl⟩
  exact ⟨[], [], K, content, items, rfl, .nil, hw, by simp [jobs, Looper.new, Phase.inflight], fun _ => by simpa [Looper.new, Store.run] using hS, hn⟩

theorem prefix_of_snoc {α : Type} {A R W : List α} {j x : α} (h : A ++ j :: R = W ++ [x]) : A <+: W := by
  apply List.prefix_of_prefix_length_le (l₃ := W ++ [x]) ⟨j :: R, h⟩ ⟨[x], rfl⟩
  have := congrArg List.length h
  simp at this; omega

/-- A job still to run means the file has not been removed. -/
theorem not_removed {codecs : ι → Codec} {s : Inst ι} (h : Book codecs s) {j : Job} {rest : List Job}
    (hb : s.lp.buf = j :: rest) : s.lp.cb.removed = false := by
  cases hr : s.lp.cb.removed with
  | false => rfl
  | true =>
    exfalso
    obtain ⟨cb0, _, hinv⟩ := h.inv
    have hmem := h.removed.1 hr
    have hsp := hinv.split
    rw [h.late, List.append_nil, hb] at hsp
    have hj : s.jobs = s.lp.ran.map (·.2) ++ j :: (rest ++ s.lp.queue ++ s.phase.inflight) := by
      unfold jobs; rw [← hsp]; simp
    cases hc : s.phase.clearing with
    | false =>
      have := h.jobsW hc .remove (by rw [hj]; exact List.mem_append_left _ hmem)
      simp [Job.isWrite] at this
    | true =>
      obtain ⟨W, hW, hW'⟩ := h.jobsC hc
      rw [hj] at hW
      have hpre := prefix_of_snoc hW
      have := hW' _ (hpre.subset hmem)
      simp [Job.isWrite] at this

/-- One event: no failure, and the invariant is kept. -/
theorem dat_step {E : Env ι} {S0 : Store} {K : Nat} {pre cs : List Mutation} {s s' : Inst ι} {e : Ev ι}
    {r : Option (Out Unit)} (h : DAt E S0 K pre cs s) (he : e.Ok E)
    (hroom : E.Room (K + cs.length)) (hs : step E.codecs s e = some (s', r)) :
    (∀ x, r = some x → x = .ok ()) ∧
      ∃ pre', ((pre' = pre ∧ ∀ i, e = .api i → s.phase ≠ .clrOpen) ∨ pre' = cs) ∧ DAt E S0 K pre' (cs ++ e.call?.toList) s' := by
  obtain ⟨hbook, halive, hpage, hkv, hjok, post, K0, content, items, hcs, htr, hw, hK, hdisk⟩ := h
  obtain ⟨cb0, hcb0, hinv⟩ := hbook.inv
  -- first: the response
  have hok : ∀ x, r = some x → x = .ok () := by
    intro x hx
    cases e with
    | put k t bs =>
      simp only [step] at hs
      split at hs
      · cases hs
      rename_i hg
      have hidle : s.phase = .idle := by cases hp : s.phase <;> simp [hp] at hg ⊢
      simp only [hbook.poisoned, hbook.valid, hidle, Phase.clearing, Bool.false_eq_true, if_false, Bool.not_false,
        Bool.true_eq_false, Option.some.injEq, Prod.mk.injEq] at hs
      rw [← hs.2] at hx; cases hx
    | delete k =>
      simp only [step] at hs
      split at hs
      · cases hs
      rename_i hg
      have hidle : s.phase = .idle := by simpa using hg
      simp only [hbook.poisoned, hbook.valid, hidle, Phase.clearing, Bool.false_eq_true, if_false, Bool.not_false,
        Bool.true_eq_false] at hs
      split at hs
      · simp only [Option.some.injEq, Prod.mk.injEq] at hs
        rw [← hs.2] at hx; injection hx with hx; exact hx.symm
      · simp only [Option.some.injEq, Prod.mk.injEq] at hs
        rw [← hs.2] at hx; cases hx
    | clear =>
      simp only [step] at hs
      split at hs
      · cases hs
      rename_i hg
      have hidle : s.phase = .idle := by simpa using hg
      simp only [hbook.poisoned, hbook.valid, hidle, Phase.clearing, Bool.false_eq_true, if_false, Bool.not_false,
        Bool.true_eq_false, Option.some.injEq, Prod.mk.injEq] at hs
      rw [← hs.2] at hx; cases hx
    | drop =>
      simp only [step] at hs
      split at hs
      · cases hs
      · simp only [Option.some.injEq, Prod.mk.injEq] at hs
        rw [← hs.2] at hx; cases hx
    | io o =>
      simp only [step] at hs
      split at hs
      · cases hs
      · simp only [Option.some.injEq, Prod.mk.injEq] at hs
        rw [← hs.2] at hx; cases hx
    | api i =>
      simp only [step] at hs
      have hsd := hbook.sender
      cases hp : s.phase with
      | idle => simp [hp] at hs
      | closed => simp [hp] at hs
      | push j =>
        simp only [hp, Option.some.injEq, Prod.mk.injEq] at hs
        rw [← hs.2] at hx; cases hx
      | clrPush =>
        simp only [hp, Option.some.injEq, Prod.mk.injEq] at hs
        rw [← hs.2] at hx; cases hx
      | send =>
        have hsd : s.lp.sender = true := by simpa [hp, Phase.open] using hsd
        have hd : ¬ (s.lp.io = .dead ∨ s.lp.io = .exited) := by
          rintro (h | h)
          · exact halive.2 h
          · simp [(hinv.exitedClosed h).1] at hsd
        simp only [hp, Looper.send, hsd, if_true, hd, if_false, Option.some.injEq, Prod.mk.injEq] at hs
        rw [← hs.2] at hx; injection hx with hx; exact hx.symm
      | clrSend =>
        have hsd : s.lp.sender = true := by simpa [hp, Phase.open] using hsd
        have hd : ¬ (s.lp.io = .dead ∨ s.lp.io = .exited) := by
          rintro (h | h)
          · exact halive.2 h
          · simp [(hinv.exitedClosed h).1] at hsd
        simp only [hp, Looper.send, hsd, if_true, hd, if_false, Option.some.injEq, Prod.mk.injEq] at hs
        rw [← hs.2] at hx; cases hx
      | clrQuit =>
        have hsd : s.lp.sender = true := by simpa [hp, Phase.open] using hsd
        have hd : ¬ (s.lp.io = .dead ∨ s.lp.io = .exited) := by
          rintro (h | h)
          · exact halive.2 h
          · simp [(hinv.exitedClosed h).1] at hsd
        simp only [hp, Looper.quitSend, hsd, if_true, hd, if_false, Option.some.injEq, Prod.mk.injEq] at hs
        rw [← hs.2] at hx; cases hx
      | clrJoin =>
        simp only [hp] at hs
        split at hs
        · simp only [Option.some.injEq, Prod.mk.injEq] at hs
          rw [← hs.2] at hx; cases hx
        · split at hs
          · rename_i hd; exact absurd hd halive.2
          · cases hs
      | clrOpen =>
        simp only [hp] at hs
        obtain ⟨hex, hjd⟩ := hbook.joined hp
        have hremoved : s.lp.cb.removed = true := by
          rw [hbook.removed]
          obtain ⟨W, hW, _⟩ := hbook.jobsC (by simp [hp, Phase.clearing])
          obtain ⟨t, ht⟩ := hinv.exited_all hex
          rw [← ht]
          have : Job.remove ∈ s.jobs := by rw [hW]; simp
          simp only [jobs, hp, Phase.inflight, List.append_nil] at this
          exact List.mem_append_left _ this
        have hdk : s.disk = [] := by simp [disk, hremoved]
        rw [hdk, hpage, hw.usz, hw.quota] at hs
        unfold openAt at hs
        simp only [openStore_nil _ _ E.page8, hjd, if_true, Option.some.injEq, Prod.mk.injEq] at hs
        rw [← hs.2] at hx; injection hx with hx; exact hx.symm
  refine ⟨hok, ?_⟩
  obtain ⟨hbook', hview⟩ := book_step hbook hs hok
  have hkv' : view s'.kv = S0.run (cs ++ e.call?.toList) := by rw [hview, hkv, run_append]
  cases e with
  | put k t bs =>
    simp only [step] at hs
    split at hs
    · cases hs
    rename_i hg
    have hidle : s.phase = .idle := by cases hp : s.phase <;> simp [hp] at hg ⊢
    have htok : tokenOk t = true := by simpa [hidle] using hg
    simp only [hbook.poisoned, hbook.valid, hidle, Phase.clearing, Bool.false_eq_true, if_false, Bool.not_false,
      Bool.true_eq_false, Option.some.injEq, Prod.mk.injEq] at hs
    obtain ⟨rfl, rfl⟩ := hs
    have hjobs : ∀ b, (jobs { s with kv := s.kv.insert k (Buffer.ofRaw k t bs), phase := .push (.write b (s.kv.get k).isSome) }) =
        s.jobs ++ [.write b (s.kv.get k).isSome] := by
      intro b; simp [jobs, hidle, Phase.inflight]
    refine ⟨pre, .inl ⟨rfl, by simp⟩, hbook', halive, hpage, hkv', ?_, post ++ [.put k ⟨t, bs⟩], K0, content, items, ?_, ?_, hw, ?_, hdisk⟩
    · intro b dup hj
      simp only [jobs, Phase.inflight, List.mem_append, List.mem_singleton] at hj
      rcases hj with hj | hj
      · exact hjok b dup (by simp [jobs, hj])
      · injection hj with h1 h2; subst h1; exact he
    · simp [hcs, Ev.call?]
    · have := htr.both (.put k ⟨t, bs⟩) (by simp)
      simp only [jobs, hidle, Phase.inflight, List.append_nil] at this
      simp only [jobs, Phase.inflight, List.map_append, List.map_cons, List.map_nil, Job.mutation, mutation_ofRaw htok]
      exact this
    · simp only [jobs, Phase.inflight, hidle, Ev.call?, Option.toList, List.length_append, List.length_cons, List.length_nil] at hK ⊢
      omega
  | delete k =>
    simp only [step] at hs
    split at hs
    · cases hs
    rename_i hg
    have hidle : s.phase = .idle := by simpa using hg
    simp only [hbook.poisoned, hbook.valid, hidle, Phase.clearing, Bool.false_eq_true, if_false, Bool.not_false,
      Bool.true_eq_false] at hs
    split at hs
    · rename_i hn
      simp only [Option.some.injEq, Prod.mk.injEq] at hs
      obtain ⟨rfl, rfl⟩ := hs
      refine ⟨pre, .inl ⟨rfl, by simp⟩, hbook', halive, hpage, hkv', hjok, post ++ [.delete k], K0, content, items, ?_, ?_, hw, ?_, hdisk⟩
      · simp [hcs, Ev.call?]
      · refine htr.skip _ ?_
        rw [← run_append, ← hcs, ← hkv, view]
        simpa using hn
      · simp [Ev.call?]; omega
    · simp only [Option.some.injEq, Prod.mk.injEq] at hs
      obtain ⟨rfl, rfl⟩ := hs
      refine ⟨pre, .inl ⟨rfl, by simp⟩, hbook', halive, hpage, hkv', ?_, post ++ [.delete k], K0, content, items, ?_, ?_, hw, ?_, hdisk⟩
      · intro b dup hj
        simp only [jobs, Phase.inflight, List.mem_append, List.mem_singleton] at hj
        rcases hj with hj | hj
        · exact hjok b dup (by simp [jobs, hj])
        · injection hj with h1 h2; subst h1; exact he
      · simp [hcs, Ev.call?]
      · have := htr.both (.delete k) (by
          intro k' hk'
          injection hk' with hk'
          subst hk'
          rw [← run_append, ← hcs, ← hkv, view]
          rename_i hn
          simpa using hn)
        simp only [jobs, hidle, Phase.inflight, List.append_nil] at this
        simp only [jobs, Phase.inflight, List.map_append, List.map_cons, List.map_nil, Job.mutation, mutation_deleted]
        exact this
      · simp only [jobs, Phase.inflight, hidle, Ev.call?, Option.toList, List.length_append, List.length_cons, List.length_nil] at hK ⊢
        omega
  | clear =>
    simp only [step] at hs
    split at hs
    · cases hs
    rename_i hg
    have hidle : s.phase = .idle := by simpa using hg
    simp only [hbook.poisoned, hbook.valid, hidle, Phase.clearing, Bool.false_eq_true, if_false, Bool.not_false,
      Bool.true_eq_false, Option.some.injEq, Prod.mk.injEq] at hs
    obtain ⟨rfl, rfl⟩ := hs
    refine ⟨pre, .inl ⟨rfl, by simp⟩, hbook', halive, hpage, hkv', ?_, post ++ [.clear], K0, content, items, ?_, ?_, hw, ?_, hdisk⟩
    · intro b dup hj
      simp only [jobs, Phase.inflight, List.mem_append, List.mem_singleton] at hj
      rcases hj with hj | hj
      · exact hjok b dup (by simp [jobs, hj])
      · cases hj
    · simp [hcs, Ev.call?]
    · have := htr.both .clear (by simp)
      simp only [jobs, hidle, Phase.inflight, List.append_nil] at this
      simp only [jobs, Phase.inflight, List.map_append, List.map_cons, List.map_nil, Job.mutation]
      exact this
    · simp only [jobs, Phase.inflight, hidle, Ev.call?, Option.toList, List.length_append, List.length_cons, List.length_nil] at hK ⊢
      omega
  | drop =>
    simp only [step] at hs
    split at hs
    · cases hs
    rename_i hg
    have hidle : s.phase = .idle := by simpa using hg
    simp only [Option.some.injEq, Prod.mk.injEq] at hs
    obtain ⟨rfl, rfl⟩ := hs
    have hj : jobs { s with phase := .closed, lp := Looper.dropSender s.lp } = s.jobs := by
      simp [jobs, hidle, Phase.inflight, Looper.dropSender]
    exact ⟨pre, .inl ⟨rfl, by simp⟩, hbook', halive, hpage, hkv', by rw [hj]; exact hjok, post, K0, content, items, by simpa [Ev.call?] using hcs,
      by rw [hj]; exact htr, hw, by rw [hj]; simpa [Ev.call?] using hK, hdisk⟩
  | io o =>
    simp only [step] at hs
    split at hs
    · cases hs
    rename_i lp hlp
    simp only [Option.some.injEq, Prod.mk.injEq] at hs
    obtain ⟨rfl, rfl⟩ := hs
    have hcall : cs ++ (Ev.io o : Ev ι).call?.toList = cs := by simp [Ev.call?]
    rw [hcall] at hkv' ⊢
    -- steps that only move signals and queues
    have hquiet : lp.cb = s.lp.cb → lp.ran = s.lp.ran → lp.pushed = s.lp.pushed →
        (lp.io ≠ .unwinding ∧ lp.io ≠ .dead) →
        ∃ pre', ((pre' = pre ∧ ∀ i, (Ev.io o : Ev ι) = .api i → s.phase ≠ .clrOpen) ∨ pre' = cs) ∧ DAt E S0 K pre' cs { s with lp := lp } := by
      intro h1 h2 h3 h4
      have hj : jobs { s with lp := lp } = s.jobs := by simp [jobs, h3]
      exact ⟨pre, .inl ⟨rfl, by simp⟩, hbook', h4, by simp [h1, hpage], hkv', by rw [hj]; exact hjok, post, K0, content, items, hcs,
        by rw [hj]; exact htr, by simpa [h1, h2] using hw, by rw [hj]; exact hK, by simpa [h1, h2] using hdisk⟩
    have hlp0 := hlp
    unfold Looper.ioStep at hlp
    cases hio : s.lp.io with
    | recv =>
      simp only [hio] at hlp
      split at hlp
      · injection hlp with hlp; subst hlp; exact hquiet rfl rfl rfl (by simp)
      · injection hlp with hlp; subst hlp; exact hquiet rfl rfl rfl (by simp)
      · split at hlp
        · cases hlp
        · injection hlp with hlp; subst hlp; exact hquiet rfl rfl rfl (by simp)
    | swap => simp only [hio] at hlp; injection hlp with hlp; subst hlp; exact hquiet rfl rfl rfl (by simp)
    | unwinding => exact absurd hio halive.1
    | exited => simp [hio] at hlp
    | dead => exact absurd hio halive.2
    | run =>
      simp only [hio] at hlp
      cases hbuf : s.lp.buf with
      | nil => simp only [hbuf] at hlp; injection hlp with hlp; subst hlp; exact hquiet rfl rfl rfl (by simp)
      | cons j rest =>
        simp only [hbuf] at hlp
        have hnr := not_removed hbook hbuf
        have hmem : j ∈ s.jobs := by
          have hsp := hinv.split
          rw [hbook.late, List.append_nil, hbuf] at hsp
          unfold jobs; rw [← hsp]; simp
        have hran : s.lp.ran.length + 1 ≤ s.jobs.length := by
          have hsp := hinv.split
          rw [hbook.late, List.append_nil, hbuf] at hsp
          have := congrArg List.length hsp
          simp at this
          unfold jobs; simp; omega
        cases j with
        | write b dup =>
          obtain ⟨hokb, hlb⟩ := hjok b dup hmem
          have hle : K0 + s.lp.ran.length + 1 ≤ K + cs.length := by omega
          have hroom' : E.page * (K0 + s.lp.ran.length + 1) + 8 < 2 ^ 64 ∧ E.posOk (K0 + s.lp.ran.length + 1) := by
            refine ⟨?_, (E.lawful s.idx).posOk_mono _ _ hroom.2 hle⟩
            have := Nat.mul_le_mul_left E.page hle
            have := hroom.1
            omega
          obtain ⟨ws', content', items', hwr, hw', hconf, hshape, hmut⟩ := write_done (E.lawful s.idx) o he b dup
            (K0 + s.lp.ran.length) hw hokb (by rw [hpage]; exact hlb) (by rw [hpage]; exact hroom'.1) hroom'.2
          simp only [execJob, hwr] at hlp
          injection hlp with hlp
          subst hlp
          refine ⟨pre, .inl ⟨rfl, by simp⟩, hbook', ⟨by simp, by simp⟩, by simp [hconf.page, hpage], hkv', hjok, post, K0, content', items', hcs,
            htr, ?_, hK, ?_, ?_⟩
          · simpa [Nat.add_assoc] using hw'
          · intro _
            simp only [List.map_append, List.map_cons, List.map_nil]
            rw [run_snoc, hmut, hdisk.1 hnr]
            rfl
          · intro hn
            cases hshape with
            | append _ hi => rw [hi] at hn; exact hdisk.2 (by simpa using hn)
            | expand _ _ hi => rw [hi] at hn; exact hdisk.2 (by simpa using hn)
            | trim _ _ hi => rw [hi] at hn; simp at hn
        | remove =>
          simp only [execJob] at hlp
          injection hlp with hlp
          subst hlp
          refine ⟨pre, .inl ⟨rfl, by simp⟩, hbook', ⟨by simp, by simp⟩, hpage, hkv', hjok, post, K0, content, items, hcs, htr, ?_, hK, by simp, hdisk.2⟩
          exact hw.mono (by simp)
  | api i =>
    have hcall : cs ++ (Ev.api i : Ev ι).call?.toList = cs := by simp [Ev.call?]
    rw [hcall] at hkv' ⊢
    simp only [step] at hs
    have hsd := hbook.sender
    cases hp : s.phase with
    | idle => simp [hp] at hs
    | closed => simp [hp] at hs
    | push j =>
      simp only [hp, Option.some.injEq, Prod.mk.injEq] at hs
      obtain ⟨rfl, rfl⟩ := hs
      have hsd : s.lp.sender = true := by simpa [hp, Phase.open] using hsd
      have hj : jobs { s with lp := Looper.push s.lp j, phase := .send } = s.jobs := by
        simp [jobs, hp, Phase.inflight, Looper.push, hsd]
      refine ⟨pre, .inl ⟨rfl, by simp⟩, hbook', by simpa [Looper.push, hsd] using halive, by simpa [Looper.push, hsd] using hpage, hkv', by rw [hj]; exact hjok, post, K0, content, items, hcs,
        by rw [hj]; exact htr, by simpa [Looper.push, hsd] using hw, by rw [hj]; exact hK, by simpa [Looper.push, hsd] using hdisk⟩
    | clrPush =>
      simp only [hp, Option.some.injEq, Prod.mk.injEq] at hs
      obtain ⟨rfl, rfl⟩ := hs
      have hsd : s.lp.sender = true := by simpa [hp, Phase.open] using hsd
      have hj : jobs { s with lp := Looper.push s.lp .remove, phase := .clrSend } = s.jobs := by
        simp [jobs, hp, Phase.inflight, Looper.push, hsd]
      refine ⟨pre, .inl ⟨rfl, by simp⟩, hbook', by simpa [Looper.push, hsd] using halive, by simpa [Looper.push, hsd] using hpage, hkv', by rw [hj]; exact hjok, post, K0, content, items, hcs,
        by rw [hj]; exact htr, by simpa [Looper.push, hsd] using hw, by rw [hj]; exact hK, by simpa [Looper.push, hsd] using hdisk⟩
    | send =>
      have hsd : s.lp.sender = true := by simpa [hp, Phase.open] using hsd
      have hd : ¬ (s.lp.io = .dead ∨ s.lp.io = .exited) := by
        rintro (h | h)
        · exact halive.2 h
        · simp [(hinv.exitedClosed h).1] at hsd
      simp only [hp, Looper.send, hsd, if_true, hd, if_false, Option.some.injEq, Prod.mk.injEq] at hs
      obtain ⟨rfl, rfl⟩ := hs
      refine ⟨pre, .inl ⟨rfl, by simp⟩, hbook', halive, hpage, hkv', by simpa [jobs, hp, Phase.inflight] using hjok, post, K0, content, items, hcs,
        by simpa [jobs, hp, Phase.inflight] using htr, hw, by simpa [jobs, hp, Phase.inflight] using hK, hdisk⟩
    | clrSend =>
      have hsd : s.lp.sender = true := by simpa [hp, Phase.open] using hsd
      have hd : ¬ (s.lp.io = .dead ∨ s.lp.io = .exited) := by
        rintro (h | h)
        · exact halive.2 h
        · simp [(hinv.exitedClosed h).1] at hsd
      simp only [hp, Looper.send, hsd, if_true, hd, if_false, Option.some.injEq, Prod.mk.injEq] at hs
      obtain ⟨rfl, rfl⟩ := hs
      refine ⟨pre, .inl ⟨rfl, by simp⟩, hbook', halive, hpage, hkv', by simpa [jobs, hp, Phase.inflight] using hjok, post, K0, content, items, hcs,
        by simpa [jobs, hp, Phase.inflight] using htr, hw, by simpa [jobs, hp, Phase.inflight] using hK, hdisk⟩
    | clrQuit =>
      have hsd : s.lp.sender = true := by simpa [hp, Phase.open] using hsd
      have hd : ¬ (s.lp.io = .dead ∨ s.lp.io = .exited) := by
        rintro (h | h)
        · exact halive.2 h
        · simp [(hinv.exitedClosed h).1] at hsd
      simp only [hp, Looper.quitSend, hsd, if_true, hd, if_false, Option.some.injEq, Prod.mk.injEq] at hs
      obtain ⟨rfl, rfl⟩ := hs
      refine ⟨pre, .inl ⟨rfl, by simp⟩, hbook', halive, hpage, hkv', by simpa [jobs, hp, Phase.inflight] using hjok, post, K0, content, items, hcs,
        by simpa [jobs, hp, Phase.inflight] using htr, hw, by simpa [jobs, hp, Phase.inflight] using hK, hdisk⟩
    | clrJoin =>
      simp only [hp] at hs
      by_cases hex : s.lp.io = .exited
      · simp only [hex, if_true, Option.some.injEq, Prod.mk.injEq] at hs
        obtain ⟨rfl, rfl⟩ := hs
        refine ⟨pre, .inl ⟨rfl, by simp⟩, hbook', halive, hpage, hkv', by simpa [jobs, hp, Phase.inflight] using hjok, post, K0, content, items, hcs,
          by simpa [jobs, hp, Phase.inflight] using htr, hw, by simpa [jobs, hp, Phase.inflight] using hK, hdisk⟩
      · simp only [hex, if_false, halive.2] at hs
        cases hs
    | clrOpen =>
      simp only [hp] at hs
      obtain ⟨hex, hjd⟩ := hbook.joined hp
      have hclr : s.phase.clearing = true := by simp [hp, Phase.clearing]
      have hremoved : s.lp.cb.removed = true := by
        rw [hbook.removed]
        obtain ⟨W, hW, _⟩ := hbook.jobsC hclr
        obtain ⟨t, ht⟩ := hinv.exited_all hex
        rw [← ht]
        have : Job.remove ∈ s.jobs := by rw [hW]; simp
        simp only [jobs, hp, Phase.inflight, List.append_nil] at this
        exact List.mem_append_left _ this
      have hdk : s.disk = [] := by simp [disk, hremoved]
      have hempty : S0.run cs = Store.empty := by rw [← hkv, hbook.kvClear hclr, view_nil]
      rw [hdk, hpage, hw.usz, hw.quota, hremoved] at hs
      simp only [if_true] at hs
      obtain ⟨s1, hopen, hdinv, _⟩ := dinv_open (E := E) (i := i) (K := 0) (GoodFile.empty (E := E) (c := E.codecs i) (K := 0))
      rw [hopen] at hs
      simp only [hjd, if_true, Option.some.injEq, Prod.mk.injEq] at hs
      obtain ⟨rfl, rfl⟩ := hs
      obtain ⟨_, halive1, hpage1, _, hjok1, pre1, post1, K1, content1, items1, hcs1, htr1, hw1, hK1, hdisk1⟩ := hdinv
      have hnil : pre1 = [] ∧ post1 = [] := by simpa using hcs1.symm
      obtain ⟨rfl, rfl⟩ := hnil
      have hrun0 : Store.empty.run [] = Store.empty := rfl
      rw [hrun0] at htr1 hdisk1
      refine ⟨cs, .inr rfl, hbook', halive1, hpage1, hkv', hjok1, [], K1, content1, items1, by simp, by rw [hempty]; exact htr1, hw1, ?_, by rw [hempty]; exact hdisk1⟩
      simp only [List.length_nil] at hK1
      omega

/-- One event: no failure, and the invariant is kept. -/
theorem dinv_step {E : Env ι} {S0 : Store} {K : Nat} {cs : List Mutation} {s s' : Inst ι} {e : Ev ι}
    {r : Option (Out Unit)} (h : DInv E S0 K cs s) (he : e.Ok E)
    (hroom : E.Room (K + cs.length)) (hs : step E.codecs s e = some (s', r)) :
    (∀ x, r = some x → x = .ok ()) ∧ DInv E S0 K (cs ++ e.call?.toList) s' := by
  obtain ⟨pre, hd⟩ := h.dat
  obtain ⟨h1, _, _, h2⟩ := dat_step hd he hroom hs
  exact ⟨h1, h2.dinv⟩

/-- A whole history: every call succeeds and the invariant holds at the end. -/
theorem dinv_run {E : Env ι} {S0 : Store} {K : Nat} (es : List (Ev ι)) {cs : List Mutation} {s s' : Inst ι}
    {rs : List (Out Unit)} (h : DInv E S0 K cs s) (he : ∀ e ∈ es, e.Ok E)
    (hroom : E.Room (K + cs.length + (calls es).length)) (hs : run E.codecs s es = some (s', rs)) :
    (∀ x ∈ rs, x = .ok ()) ∧ DInv E S0 K (cs ++ calls es) s' := by
  induction es generalizing s rs cs with
  | nil =>
    simp only [run, Option.some.injEq, Prod.mk.injEq] at hs
    obtain ⟨rfl, rfl⟩ := hs
    exact ⟨by simp, by simpa using h⟩
  | cons e es ih =>
    unfold run at hs
    split at hs
    · cases hs
    · rename_i s1 r hstep
      split at hs
      · cases hs
      · rename_i s2 rs2 hrun
        simp only [Option.some.injEq, Prod.mk.injEq] at hs
        obtain ⟨rfl, rfl⟩ := hs
        have hne : Nonempty ι := ⟨s.idx⟩
        rw [calls_cons] at hroom ⊢
        simp only [List.length_append] at hroom
        obtain ⟨hr1, hd1⟩ := dinv_step h (he e List.mem_cons_self) (hroom.mono (by omega)) hstep
        obtain ⟨hr2, hd2⟩ := ih hd1 (fun e' he' => he e' (List.mem_cons_of_mem _ he'))
          (by simp only [List.length_append]; rw [show K + (cs.length + e.call?.toList.length) + (calls es).length =
                K + cs.length + (e.call?.toList.length + (calls es).length) by omega]; exact hroom) hrun
        refine ⟨?_, by simpa using hd2⟩
        intro x hx
        rcases List.mem_append.1 hx with hx | hx
        · exact hr1 x (by simpa using hx)
        · exact hr2 x hx

/-- Between two background writes the disk holds a prefix of the calls. -/
theorem disk_prefix {E : Env ι} {S0 : Store} {K : Nat} {cs : List Mutation} {s : Inst ι} (h : DInv E S0 K cs s) (i : ι)
    (hi : s.lp.cb.removed = false → i = s.idx) :
    ∃ m, m ≤ cs.length ∧ GoodFile E (E.codecs i) (K + cs.length) s.disk (S0.run (cs.take m)) := by
  obtain ⟨hbook, _, hpage, _, _, pre, post, K0, content, items, hcs, htr, hw, hK, hdisk⟩ := h
  obtain ⟨cb0, _, hinv⟩ := hbook.inv
  have hpre : s.lp.ran.map (·.2) <+: s.jobs := by
    have := hinv.ran_prefix
    rw [hbook.late, List.append_nil] at this
    exact this.trans ⟨_, rfl⟩
  have hlen : s.lp.ran.length ≤ s.jobs.length := by simpa using hpre.length_le
  have htake : (s.jobs.map Job.mutation).take s.lp.ran.length = s.lp.ran.map (·.2.mutation) := by
    obtain ⟨t, ht⟩ := hpre
    rw [← ht, List.map_append, List.take_left' (by simp), List.map_map]
    rfl
  obtain ⟨m, hm, hrun⟩ := htr.take s.lp.ran.length (by simpa using hlen)
  rw [htake] at hrun
  have hS : S0.run (cs.take (pre.length + m)) = (S0.run pre).run (s.lp.ran.map (·.2.mutation)) := by
    rw [hcs, ← hrun, List.take_append, List.take_of_length_le (by omega), Nat.add_sub_cancel_left, run_append]
  refine ⟨pre.length + m, by rw [hcs]; simp; omega, ?_⟩
  rw [hS]
  cases hr : s.lp.cb.removed with
  | false =>
    have hd : s.disk = s.lp.cb.ws.file := by simp [disk, hr]
    rw [hd, hi hr, ← hdisk.1 hr]
    refine .held hw.holds hw.framed hw.bufs (by rw [← hpage]; exact hw.fits) ?_ ?_ hdisk.2
    · have := hw.count; omega
    · have := hw.size
      rw [hpage] at this
      exact Nat.le_trans this (Nat.mul_le_mul_left _ (by omega))
  | true =>
    have hd : s.disk = [] := by simp [disk, hr]
    -- the removal is the last job
    have hmem := hbook.removed.1 hr
    have hclr : s.phase.clearing = true := by
      cases hc : s.phase.clearing with
      | true => rfl
      | false =>
        have := hbook.jobsW hc .remove (hpre.subset hmem)
        simp [Job.isWrite] at this
    obtain ⟨W, hW, hW'⟩ := hbook.jobsC hclr
    have hall : s.lp.ran.map (·.2) = W ++ [.remove] := by
      rw [hW] at hpre
      rcases Nat.lt_or_ge (s.lp.ran.map (·.2)).length (W.length + 1) with hlt | hge
      · have h2 : s.lp.ran.map (·.2) <+: W :=
          List.prefix_of_prefix_length_le hpre ⟨[.remove], rfl⟩ (by omega)
        have := hW' _ (h2.subset hmem)
        simp [Job.isWrite] at this
      · exact hpre.eq_of_length_le (by simpa using hge)
    have : s.lp.ran.map (·.2.mutation) = W.map Job.mutation ++ [.clear] := by
      have := congrArg (List.map Job.mutation) hall
      rw [List.map_map] at this
      rw [List.map_append] at this
      exact this
    rw [hd, this, run_snoc]
    exact .empty

/-- Once every job has been run (and no `clear_data` is under way) the disk holds all the calls. -/
theorem disk_drained {E : Env ι} {S0 : Store} {K : Nat} {cs : List Mutation} {s : Inst ι} (h : DInv E S0 K cs s)
    (hncl : s.phase.clearing = false) (hjobs : s.jobs = s.lp.ran.map (·.2)) :
    s.lp.cb.removed = false ∧ GoodFile E (E.codecs s.idx) (K + cs.length) s.disk (S0.run cs) := by
  obtain ⟨hbook, _, hpage, _, _, pre, post, K0, content, items, hcs, htr, hw, hK, hdisk⟩ := h
  have hnr : s.lp.cb.removed = false := by
    cases hr : s.lp.cb.removed with
    | false => rfl
    | true =>
      have := hbook.jobsW hncl .remove (by rw [hjobs]; exact hbook.removed.1 hr)
      simp [Job.isWrite] at this
  refine ⟨hnr, ?_⟩
  have hS : S0.run cs = Store.empty.run (mutations items) := by
    rw [hdisk.1 hnr, hcs, run_append, htr.run_eq, hjobs, List.map_map]
    rfl
  have hd : s.disk = s.lp.cb.ws.file := by simp [disk, hnr]
  have hlen : s.lp.ran.length = s.jobs.length := by rw [hjobs]; simp
  rw [hd, hS]
  refine .held hw.holds hw.framed hw.bufs (by rw [← hpage]; exact hw.fits) ?_ ?_ hdisk.2
  · have := hw.count; omega
  · have := hw.size
    rw [hpage] at this
    exact Nat.le_trans this (Nat.mul_le_mul_left _ (by omega))

/-- After a clean close the disk holds all the calls. -/
theorem disk_closed {E : Env ι} {S0 : Store} {K : Nat} {cs : List Mutation} {s : Inst ι} (h : DInv E S0 K cs s)
    (hc : s.closedOk) : s.lp.cb.removed = false ∧ GoodFile E (E.codecs s.idx) (K + cs.length) s.disk (S0.run cs) := by
  obtain ⟨cb0, _, hinv⟩ := h.book.inv
  obtain ⟨hph, hex⟩ := hc
  have hpre := hinv.exited_all hex
  have hpre2 := hinv.ran_prefix
  rw [h.book.late, List.append_nil] at hpre2
  have heq : s.lp.ran.map (·.2) = s.lp.pushed := hpre2.eq_of_length_le hpre.length_le
  exact disk_drained h (by simp [hph, Phase.clearing]) (by simp [jobs, hph, Phase.inflight, heq])

/-- A store at rest (no call under way, the thread waiting for a signal that is not there) has run every job. -/
theorem drained_at_rest {E : Env ι} {S0 : Store} {K : Nat} {cs : List Mutation} {s : Inst ι} (h : DInv E S0 K cs s)
    (hidle : s.phase = .idle) (hwait : s.lp.io = .recv) (hchan : s.lp.chan = []) : s.jobs = s.lp.ran.map (·.2) := by
  obtain ⟨cb0, _, hinv⟩ := h.book.inv
  have hb := hinv.bufEmpty (.inl hwait)
  have howed : s.lp.owed = 0 := by rw [h.book.owed, hidle]; rfl
  have hlen : s.lp.pushed.length ≤ s.lp.ran.length := by
    rcases hinv.wake with w | w | w | w | w | w
    · simp [hwait] at w
    · simp [hwait] at w
    · simpa [hb] using w
    · omega
    · simp [hchan] at w
    · simp [hwait] at w
  have hp := hinv.ran_prefix
  rw [h.book.late, List.append_nil] at hp
  simp [jobs, hidle, Phase.inflight, hp.eq_of_length_le (by simpa using hlen)]

end Inst
end Mmkv
