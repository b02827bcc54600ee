import Verif.Lemmas.Session
/-! How large the file can get: superseded records are bounded by what was there at the start. -/

namespace Mmkv
open Spec
variable {ι : Type}

/-- The store has at most `n` keys, whose records take at most `L` bytes together. -/
def _root_.Spec.Store.Within (size : String → Entry → Nat) (n L : Nat) (S : Store) : Prop :=
  ∃ l : List (String × Entry), (l.map (·.1)).Nodup ∧ (∀ k e, S k = some e ↔ (k, e) ∈ l) ∧
    l.length ≤ n ∧ (l.map fun p => size p.1 p.2).sum ≤ L

/-- The size of an entry of the plain map as a record. -/
def entrySize (recLen : Buffer → Nat) (k : String) (e : Entry) : Nat := recLen ⟨k, e.token, e.bytes⟩

theorem nodup_of_map {α β : Type} (f : α → β) {l : List α} (h : (l.map f).Nodup) : l.Nodup := by
  induction l with
  | nil => simp
  | cons a l ih =>
    simp only [List.map_cons, List.nodup_cons] at h ⊢
    exact ⟨fun hm => h.1 (List.mem_map_of_mem hm), ih h.2⟩

theorem within_values {recLen : Buffer → Nat} {n L : Nat} {m : KvMap Buffer} (h : MapWF m)
    (hw : Store.Within (entrySize recLen) n L (view m)) : m.values.length ≤ n ∧ sumLen recLen m.values ≤ L := by
  obtain ⟨l, hnd, hmem, hn, hL⟩ := hw
  have hperm : (m.map fun p => (p.1, p.2.entry)).Perm l := by
    rw [List.perm_ext_iff_of_nodup]
    · rintro ⟨k, e⟩
      rw [← hmem]
      simp only [List.mem_map, Prod.mk.injEq, view]
      constructor
      · rintro ⟨⟨k', b⟩, hb, rfl, rfl⟩
        rw [KvMap.get_of_mem h.unique hb]; rfl
      · intro hk
        cases hg : KvMap.get m k with
        | none => simp [hg] at hk
        | some b =>
          simp only [hg, Option.map_some, Option.some.injEq] at hk
          exact ⟨(k, b), KvMap.mem_of_get hg, rfl, hk⟩
    · apply nodup_of_map (·.1)
      rw [List.map_map]
      exact h.unique
    · exact nodup_of_map (·.1) hnd
  have h1 := hperm.length_eq
  have h2 := (hperm.map fun p => entrySize recLen p.1 p.2).sum_nat
  rw [List.map_map] at h2
  have h3 : sumLen recLen m.values = (m.map ((fun p : String × Entry => entrySize recLen p.1 p.2) ∘ fun p => (p.1, p.2.entry))).sum := by
    unfold sumLen KvMap.values
    rw [List.map_map]
    congr 1
    apply List.map_congr_left
    rintro ⟨k, b⟩ hb
    obtain ⟨hk, _⟩ := h.keyed k b hb
    subst hk
    rfl
  refine ⟨?_, by rw [h3, h2]; exact hL⟩
  simp only [KvMap.values, List.length_map] at h1 ⊢
  omega

theorem within_of_map {recLen : Buffer → Nat} {m : KvMap Buffer} (h : MapWF m) :
    Store.Within (entrySize recLen) m.length (sumLen recLen m.values) (view m) := by
  refine ⟨m.map fun p => (p.1, p.2.entry), ?_, ?_, by simp, ?_⟩
  · rw [List.map_map]; exact h.unique
  · intro k e
    simp only [List.mem_map, Prod.mk.injEq, view]
    constructor
    · intro hk
      cases hg : KvMap.get m k with
      | none => simp [hg] at hk
      | some b =>
        simp only [hg, Option.map_some, Option.some.injEq] at hk
        exact ⟨(k, b), KvMap.mem_of_get hg, rfl, hk⟩
    · rintro ⟨⟨k', b⟩, hb, rfl, rfl⟩
      rw [KvMap.get_of_mem h.unique hb]; rfl
  · rw [List.map_map]
    unfold sumLen KvMap.values
    rw [List.map_map]
    apply Nat.le_of_eq
    congr 1
    apply List.map_congr_left
    rintro ⟨k, b⟩ hb
    obtain ⟨hk, _⟩ := h.keyed k b hb
    subst hk
    rfl

theorem overflows_le (recLen : Buffer → Nat) (maxLen : Nat) : ∀ (off : Nat) (bs : List Buffer), overflows recLen maxLen off bs ≤ bs.length
  | _, [] => by simp [overflows]
  | off, b :: bs => by
    have := overflows_le recLen maxLen (off + recLen b) bs
    simp only [overflows, List.length_cons]
    split <;> omega

theorem overflows_zero (recLen : Buffer → Nat) (maxLen : Nat) : ∀ (off : Nat) (bs : List Buffer), off + sumLen recLen bs ≤ maxLen →
    overflows recLen maxLen off bs = 0
  | _, [], _ => rfl
  | off, b :: bs, h => by
    rw [sumLen_cons] at h
    have := overflows_zero recLen maxLen (off + recLen b) bs (by omega)
    simp only [overflows, this]
    rw [if_neg (by omega)]

/-- A write not marked as a duplicate adds a key that is not there. -/
def DupOk : Store → List Job → Prop
  | _, [] => True
  | S, j :: js => (match j with
      | .write b dup => dup = false → b.isDeleting = false ∧ S b.key = none
      | .remove => True) ∧ DupOk (S.apply j.mutation) js

theorem dupOk_append {S : Store} {a b : List Job} : DupOk S (a ++ b) ↔ DupOk S a ∧ DupOk (S.run (a.map Job.mutation)) b := by
  induction a generalizing S with
  | nil => simp [DupOk, Store.run]
  | cons j a ih =>
    simp only [List.cons_append, DupOk, ih, List.map_cons, Store.run, List.foldl_cons, and_assoc]

theorem valid_unique {c : Codec} {s : WState} {content content' : Bytes} {items items' : List (Option Buffer)}
    (h : Valid c s content items) (h' : Valid c s content' items') : content = content' ∧ items = items' := by
  have h1 := h.holds.header
  have h2 := h'.holds.header
  have hl : content.length = content'.length := by rw [← h1, ← h2]
  constructor
  · rw [← h.holds.body, ← h'.holds.body, hl]
  · have := readItems_eq h
    rw [readItems_eq h'] at this
    injection this with this
    exact this.symm

theorem sum_fresh (recLen : Buffer → Nat) {m : KvMap Buffer} {b : Buffer} (hd : b.isDeleting = false) (hn : m.get b.key = none) :
    sumLen recLen (mapStep m (some b)).values = sumLen recLen m.values + recLen b := by
  have he : m.erase b.key = m := by
    unfold KvMap.erase
    rw [List.filter_eq_self]
    rintro ⟨k, v⟩ hm
    simp only [bne_iff_ne, ne_eq]
    rintro rfl
    unfold KvMap.get at hn
    rw [Option.map_eq_none_iff, List.find?_eq_none] at hn
    have := hn _ hm
    simp at this
  unfold mapStep
  simp only [hd, Bool.false_eq_true, if_false]
  unfold KvMap.insert
  rw [he]
  simp only [KvMap.values, List.map_cons, sumLen_cons]
  omega

/-- Growth of one write. -/
theorem growth_write {recLen : Buffer → Nat} {order : List Buffer → List Buffer} (ho : ∀ l, (order l).Perm l) {b : Buffer} {dup : Bool}
    {s s' : WState} {content content' : Bytes} {items items' : List (Option Buffer)} {c0 L n B : Nat}
    (hsh : Shape recLen order b dup s content items s' content' items')
    (hdup : dup = false → b.isDeleting = false ∧ (intoMap items).1.get b.key = none)
    (hnt : s.needTrim = false → content.length ≤ c0 + sumLen recLen (intoMap items).1.values)
    (hn : (mapStep (intoMap items).1 (some b)).values.length ≤ n)
    (hL : sumLen recLen (mapStep (intoMap items).1 (some b)).values ≤ L)
    (hB : 8 + c0 + L + s.page * max 1 n ≤ B) (hlen : s.file.length ≤ B) :
    s'.file.length ≤ B ∧ (s'.needTrim = false → content'.length ≤ c0 + sumLen recLen (intoMap items').1.values) := by
  have hmul1 : s.page * 1 ≤ s.page * max 1 n := Nat.mul_le_mul_left _ (Nat.le_max_left _ _)
  have happ : ∀ r : Bytes, r.length = recLen b → dup = false → s.needTrim = false → content' = content ++ r → items' = items ++ [some b] →
      content'.length ≤ c0 + sumLen recLen (intoMap items').1.values := by
    intro r hr hd hs hc hi
    subst hc hi
    obtain ⟨h1, h2⟩ := hdup hd
    have h3 : (intoMap (items ++ [some b])).1 = mapStep (intoMap items).1 (some b) := by simp [intoMap]
    rw [h3, sum_fresh recLen h1 h2]
    have := hnt hs
    simp only [List.length_append]
    omega
  cases hsh with
  | append hfit hi hc hl ht =>
    refine ⟨by omega, fun h => ?_⟩
    rw [ht] at h
    obtain ⟨r, hr, hc⟩ := hc
    simp only [Bool.or_eq_false_iff] at h
    exact happ r hr h.2 h.1 hc hi
  | expand hfull hnt' hi hc hl ht =>
    obtain ⟨r, hr, hc⟩ := hc
    simp only [Bool.or_eq_false_iff] at hnt'
    have h1 := happ r hr hnt'.2 hnt'.1 hc hi
    refine ⟨?_, fun _ => h1⟩
    subst hi
    have h3 : (intoMap (items ++ [some b])).1 = mapStep (intoMap items).1 (some b) := by simp [intoMap]
    rw [h3] at h1
    subst hc
    simp only [List.length_append] at h1
    omega
  | trim hfull hnt' hi hc hl ht =>
    have hp := ho (mapStep (intoMap items).1 (some b)).values
    constructor
    · by_cases hz : 8 + L ≤ s.file.length
      · rw [overflows_zero recLen _ 8 _ (by rw [sumLen_perm recLen hp]; omega)] at hl
        omega
      · have h1 := overflows_le recLen s.file.length 8 (order (mapStep (intoMap items).1 (some b)).values)
        rw [hp.length_eq] at h1
        have h2 : overflows recLen s.file.length 8 (order (mapStep (intoMap items).1 (some b)).values) ≤ max 1 n :=
          Nat.le_trans h1 (Nat.le_trans hn (Nat.le_max_right _ _))
        have h3 := Nat.mul_le_mul_right s.page h2
        rw [Nat.mul_comm (max 1 n)] at h3
        omega
    · intro _
      -- the snapshot has unique keys, so replaying it gives the same total
      have hwf := (MapWF.intoMap items).mapStep (some b)
      have hwf' := MapWF.intoMap items'
      have hv : view (intoMap items').1 = view (mapStep (intoMap items).1 (some b)) := by
        rw [view_intoMap, hi, run_values _ hwf _ hp]
      have h1 := (within_values (recLen := recLen) hwf (by rw [← hv]; exact within_of_map hwf')).2
      omega

/-- The size invariant of a store. -/
structure GInv (E : Env ι) (c0 L n B : Nat) (s : Inst ι) : Prop where
  len : s.lp.cb.ws.file.length ≤ B
  ex : ∃ Sb : Store, DupOk Sb s.jobs ∧
    (∀ m, Store.Within (entrySize E.recLen) n L (Sb.run ((s.jobs.take m).map Job.mutation))) ∧
    Sb.run (s.jobs.map Job.mutation) = view s.kv ∧
    (s.lp.cb.removed = false → ∀ content items, Valid (E.codecs s.idx) s.lp.cb.ws content items →
      view (intoMap items).1 = Sb.run (s.lp.ran.map (·.2.mutation)) ∧
      (s.lp.cb.ws.needTrim = false → content.length ≤ c0 + sumLen E.recLen (intoMap items).1.values))

namespace Inst
open Inst

theorem _root_.Mmkv.GInv.quiet {E : Env ι} {c0 L n B : Nat} {s s' : Inst ι} (h : GInv E c0 L n B s) (hcb : s'.lp.cb = s.lp.cb)
    (hran : s'.lp.ran = s.lp.ran) (hj : s'.jobs = s.jobs) (hkv : view s'.kv = view s.kv) (hidx : s'.idx = s.idx) : GInv E c0 L n B s' := by
  obtain ⟨h1, Sb, h2, h3, h4, h5⟩ := h
  exact ⟨by rw [hcb]; exact h1, Sb, by rw [hj]; exact h2, by rw [hj]; exact h3, by rw [hj, hkv]; exact h4, by
    rw [hcb, hran, hidx]; exact h5⟩

theorem _root_.Mmkv.GInv.addJob {E : Env ι} {c0 L n B : Nat} {s s' : Inst ι} (h : GInv E c0 L n B s) (hcb : s'.lp.cb = s.lp.cb)
    (hran : s'.lp.ran = s.lp.ran) {j : Job} (hj : s'.jobs = s.jobs ++ [j]) (hkv : view s'.kv = (view s.kv).apply j.mutation)
    (hidx : s'.idx = s.idx) (hdup : DupOk (view s.kv) [j]) (hw : Store.Within (entrySize E.recLen) n L (view s'.kv)) :
    GInv E c0 L n B s' := by
  obtain ⟨h1, Sb, h2, h3, h4, h5⟩ := h
  refine ⟨by rw [hcb]; exact h1, Sb, ?_, ?_, ?_, by rw [hcb, hran, hidx]; exact h5⟩
  · rw [hj, dupOk_append, h4]; exact ⟨h2, hdup⟩
  · intro m
    rw [hj]
    by_cases hm : m ≤ s.jobs.length
    · rw [List.take_append_of_le_length hm]; exact h3 m
    · rw [List.take_of_length_le (by simp; omega), List.map_append, run_append, h4]
      have : (view s.kv).run ([j].map Job.mutation) = view s'.kv := by rw [hkv]; rfl
      rw [this]; exact hw
  · rw [hj, List.map_append, run_append, h4, hkv]; rfl

theorem ginv_step {E : Env ι} {S0 : Store} {K c0 L n B : Nat} {cs : List Mutation} {s s' : Inst ι} {e : Ev ι}
    {r : Option (Out Unit)} (h : DInv E S0 K cs s) (hg : GInv E c0 L n B s) (he : e.Ok E)
    (hroom : E.Room (K + cs.length)) (hs : step E.codecs s e = some (s', r))
    (hw : Store.Within (entrySize E.recLen) n L (S0.run (cs ++ e.call?.toList)))
    (hB : 8 + c0 + L + E.page * max 1 n ≤ B) : GInv E c0 L n B s' := by
  obtain ⟨hok, hd'⟩ := dinv_step h he hroom hs
  rw [← hd'.kvView] at hw
  obtain ⟨_, hview⟩ := book_step h.book hs hok
  have hbook := h.book
  obtain ⟨cb0, hcb0, hinv⟩ := hbook.inv
  cases e with
  | put k t bs =>
    simp only [step] at hs
    split at hs
    · cases hs
    rename_i hg'
    have hidle : s.phase = .idle := by cases hp : s.phase <;> simp [hp] at hg' ⊢
    have htok : tokenOk t = true := by simpa [hidle] using hg'
    simp only [hbook.poisoned, hbook.valid, hidle, Phase.clearing, Bool.false_eq_true, if_false, Bool.not_false,
      Bool.true_eq_false, Option.some.injEq, Prod.mk.injEq] at hs
    obtain ⟨rfl, rfl⟩ := hs
    refine hg.addJob rfl rfl (j := .write (Buffer.ofRaw k t bs) (s.kv.get k).isSome) (by simp [jobs, hidle, Phase.inflight]) ?_ rfl ?_ hw
    · simp only [Job.mutation, mutation_ofRaw htok]
      simpa [Ev.call?, Store.run] using hview
    · refine ⟨?_, trivial⟩
      intro hd
      refine ⟨?_, ?_⟩
      · have := tokenOk_ne_deleted htok
        simp [Buffer.isDeleting, Buffer.ofRaw, this]
      · have : s.kv.get k = none := by simpa using hd
        simp [view, Buffer.ofRaw, this]
  | delete k =>
    simp only [step] at hs
    split at hs
    · cases hs
    rename_i hg'
    have hidle : s.phase = .idle := by simpa using hg'
    simp only [hbook.poisoned, hbook.valid, hidle, Phase.clearing, Bool.false_eq_true, if_false, Bool.not_false,
      Bool.true_eq_false] at hs
    split at hs
    · simp only [Option.some.injEq, Prod.mk.injEq] at hs
      obtain ⟨rfl, rfl⟩ := hs
      exact hg
    · simp only [Option.some.injEq, Prod.mk.injEq] at hs
      obtain ⟨rfl, rfl⟩ := hs
      refine hg.addJob rfl rfl (j := .write (Buffer.deleted k) true) (by simp [jobs, hidle, Phase.inflight]) ?_ rfl ?_ hw
      · simp only [Job.mutation, mutation_deleted]
        simpa [Ev.call?, Store.run] using hview
      · exact ⟨fun h => Bool.noConfusion h, trivial⟩
  | clear =>
    simp only [step] at hs
    split at hs
    · cases hs
    rename_i hg'
    have hidle : s.phase = .idle := by simpa using hg'
    simp only [hbook.poisoned, hbook.valid, hidle, Phase.clearing, Bool.false_eq_true, if_false, Bool.not_false,
      Bool.true_eq_false, Option.some.injEq, Prod.mk.injEq] at hs
    obtain ⟨rfl, rfl⟩ := hs
    refine hg.addJob rfl rfl (j := .remove) (by simp [jobs, hidle, Phase.inflight]) ?_ rfl ⟨trivial, trivial⟩ hw
    simpa [Ev.call?, Store.run, Job.mutation] using hview
  | drop =>
    simp only [step] at hs
    split at hs
    · cases hs
    rename_i hg'
    have hidle : s.phase = .idle := by simpa using hg'
    simp only [Option.some.injEq, Prod.mk.injEq] at hs
    obtain ⟨rfl, rfl⟩ := hs
    exact hg.quiet rfl rfl (by simp [jobs, hidle, Phase.inflight, Looper.dropSender]) rfl rfl
  | io o =>
    simp only [step] at hs
    split at hs
    · cases hs
    rename_i lp hlp
    simp only [Option.some.injEq, Prod.mk.injEq] at hs
    obtain ⟨rfl, rfl⟩ := hs
    have hquiet : lp.cb = s.lp.cb → lp.ran = s.lp.ran → lp.pushed = s.lp.pushed → GInv E c0 L n B { s with lp := lp } :=
      fun h1 h2 h3 => hg.quiet h1 h2 (by simp [jobs, h3]) rfl rfl
    unfold Looper.ioStep at hlp
    cases hio : s.lp.io with
    | recv =>
      simp only [hio] at hlp
      split at hlp
      · injection hlp with hlp; subst hlp; exact hquiet rfl rfl rfl
      · injection hlp with hlp; subst hlp; exact hquiet rfl rfl rfl
      · split at hlp
        · cases hlp
        · injection hlp with hlp; subst hlp; exact hquiet rfl rfl rfl
    | swap => simp only [hio] at hlp; injection hlp with hlp; subst hlp; exact hquiet rfl rfl rfl
    | unwinding => exact absurd hio h.alive.1
    | exited => simp [hio] at hlp
    | dead => exact absurd hio h.alive.2
    | run =>
      simp only [hio] at hlp
      cases hbuf : s.lp.buf with
      | nil => simp only [hbuf] at hlp; injection hlp with hlp; subst hlp; exact hquiet rfl rfl rfl
      | cons j rest =>
        simp only [hbuf] at hlp
        have hnr := not_removed hbook hbuf
        have hsp := hinv.split
        rw [hbook.late, List.append_nil, hbuf] at hsp
        have hmem : j ∈ s.jobs := by unfold jobs; rw [← hsp]; simp
        have hjs : ∃ tl, s.jobs = s.lp.ran.map (·.2) ++ j :: tl := by
          unfold jobs; rw [← hsp]; exact ⟨rest ++ (s.lp.queue ++ s.phase.inflight), by simp only [List.append_assoc, List.cons_append]⟩
        obtain ⟨tl, hjs⟩ := hjs
        have hran : s.lp.ran.length + 1 ≤ s.jobs.length := by rw [hjs]; simp
        obtain ⟨hlen, Sb, hdup, hwin, hkv, hfile⟩ := hg
        obtain ⟨pre, post, K0, content, items, hcs, htr, hwi, hK, hdisk⟩ := h.ex
        cases j with
        | write b dup =>
          obtain ⟨hokb, hlb⟩ := h.jobsOk b dup hmem
          have hle : K0 + s.lp.ran.length + 1 ≤ K + cs.length := by omega
          have hroom' : E.page * (K0 + s.lp.ran.length + 1) + 8 < 2 ^ 64 ∧ E.posOk (K0 + s.lp.ran.length + 1) := by
            refine ⟨?_, (E.lawful s.idx).posOk_mono _ _ hroom.2 hle⟩
            have := Nat.mul_le_mul_left E.page hle
            have := hroom.1
            omega
          obtain ⟨ws', content', items', hwr, hw', hconf, hshape, hmut⟩ := write_done (E.lawful s.idx) o he b dup
            (K0 + s.lp.ran.length) hwi hokb (by rw [h.page]; exact hlb) (by rw [h.page]; exact hroom'.1) hroom'.2
          simp only [execJob, hwr] at hlp
          injection hlp with hlp
          subst hlp
          obtain ⟨hv, hnt⟩ := hfile hnr content items hwi.toValid
          have hmm : ∀ l : List (Order × Job), (l.map (·.2)).map Job.mutation = l.map (·.2.mutation) := by
            intro l; rw [List.map_map]; rfl
          have hdj : dup = false → b.isDeleting = false ∧ (intoMap items).1.get b.key = none := by
            intro hd
            rw [hjs, dupOk_append] at hdup
            obtain ⟨h1, h2⟩ := hdup.2.1 hd
            refine ⟨h1, ?_⟩
            rw [hmm, ← hv] at h2
            simpa [view] using h2
          have hwf := (MapWF.intoMap items).mapStep (some b)
          have hvb : view (mapStep (intoMap items).1 (some b)) = Sb.run ((s.jobs.take (s.lp.ran.length + 1)).map Job.mutation) := by
            rw [view_mapStep_some, hv, hjs]
            have : (s.lp.ran.map (·.2) ++ Job.write b dup :: tl).take (s.lp.ran.length + 1) = s.lp.ran.map (·.2) ++ [Job.write b dup] := by
              have e : s.lp.ran.map (·.2) ++ Job.write b dup :: tl = (s.lp.ran.map (·.2) ++ [Job.write b dup]) ++ tl := by simp
              rw [e, List.take_left' (by simp)]
            rw [this, List.map_append, run_append, hmm]
            rfl
          obtain ⟨hnn, hLL⟩ := within_values (recLen := E.recLen) hwf (by rw [hvb]; exact hwin _)
          obtain ⟨g1, g2⟩ := growth_write he hshape hdj hnt hnn hLL (by rw [h.page]; exact hB) hlen
          refine ⟨g1, Sb, hdup, hwin, hkv, ?_⟩
          intro _ content'' items'' hval
          obtain ⟨rfl, rfl⟩ := valid_unique hw'.toValid hval
          refine ⟨?_, g2⟩
          simp only [List.map_append, List.map_cons, List.map_nil]
          rw [view_intoMap, hmut, ← view_intoMap, hv, run_snoc]
          rfl
        | remove =>
          simp only [execJob] at hlp
          injection hlp with hlp
          subst hlp
          exact ⟨hlen, Sb, hdup, hwin, hkv, by simp⟩
  | api i =>
    simp only [step] at hs
    have hsd := hbook.sender
    cases hp : s.phase with
    | idle => simp [hp] at hs
    | closed => simp [hp] at hs
    | push j =>
      simp only [hp, Option.some.injEq, Prod.mk.injEq] at hs
      obtain ⟨rfl, rfl⟩ := hs
      have hsd : s.lp.sender = true := by simpa [hp, Phase.open] using hsd
      exact hg.quiet (by simp [Looper.push, hsd]) (by simp [Looper.push, hsd]) (by simp [jobs, hp, Phase.inflight, Looper.push, hsd]) rfl rfl
    | clrPush =>
      simp only [hp, Option.some.injEq, Prod.mk.injEq] at hs
      obtain ⟨rfl, rfl⟩ := hs
      have hsd : s.lp.sender = true := by simpa [hp, Phase.open] using hsd
      exact hg.quiet (by simp [Looper.push, hsd]) (by simp [Looper.push, hsd]) (by simp [jobs, hp, Phase.inflight, Looper.push, hsd]) rfl rfl
    | send =>
      have hsd : s.lp.sender = true := by simpa [hp, Phase.open] using hsd
      have hd : ¬ (s.lp.io = .dead ∨ s.lp.io = .exited) := by
        rintro (h' | h')
        · exact h.alive.2 h'
        · simp [(hinv.exitedClosed h').1] at hsd
      simp only [hp, Looper.send, hsd, if_true, hd, if_false, Option.some.injEq, Prod.mk.injEq] at hs
      obtain ⟨rfl, rfl⟩ := hs
      exact hg.quiet rfl rfl (by simp [jobs, hp, Phase.inflight]) rfl rfl
    | clrSend =>
      have hsd : s.lp.sender = true := by simpa [hp, Phase.open] using hsd
      have hd : ¬ (s.lp.io = .dead ∨ s.lp.io = .exited) := by
        rintro (h' | h')
        · exact h.alive.2 h'
        · simp [(hinv.exitedClosed h').1] at hsd
      simp only [hp, Looper.send, hsd, if_true, hd, if_false, Option.some.injEq, Prod.mk.injEq] at hs
      obtain ⟨rfl, rfl⟩ := hs
      exact hg.quiet rfl rfl (by simp [jobs, hp, Phase.inflight]) rfl rfl
    | clrQuit =>
      have hsd : s.lp.sender = true := by simpa [hp, Phase.open] using hsd
      have hd : ¬ (s.lp.io = .dead ∨ s.lp.io = .exited) := by
        rintro (h' | h')
        · exact h.alive.2 h'
        · simp [(hinv.exitedClosed h').1] at hsd
      simp only [hp, Looper.quitSend, hsd, if_true, hd, if_false, Option.some.injEq, Prod.mk.injEq] at hs
      obtain ⟨rfl, rfl⟩ := hs
      exact hg.quiet rfl rfl (by simp [jobs, hp, Phase.inflight]) rfl rfl
    | clrJoin =>
      simp only [hp] at hs
      by_cases hex : s.lp.io = .exited
      · simp only [hex, if_true, Option.some.injEq, Prod.mk.injEq] at hs
        obtain ⟨rfl, rfl⟩ := hs
        exact hg.quiet rfl rfl (by simp [jobs, hp, Phase.inflight]) rfl rfl
      · simp only [hex, if_false, h.alive.2] at hs
        cases hs
    | clrOpen =>
      simp only [hp] at hs
      obtain ⟨hex, hjd⟩ := hbook.joined hp
      have hclr : s.phase.clearing = true := by simp [hp, Phase.clearing]
      have hremoved : s.lp.cb.removed = true := by
        rw [hbook.removed]
        obtain ⟨W, hW, _⟩ := hbook.jobsC hclr
        obtain ⟨t, ht⟩ := hinv.exited_all hex
        rw [← ht]
        have : Job.remove ∈ s.jobs := by rw [hW]; simp
        simp only [jobs, hp, Phase.inflight, List.append_nil] at this
        exact List.mem_append_left _ this
      have hdk : s.disk = [] := by simp [disk, hremoved]
      obtain ⟨pre, post, K0, content, items, hcs, htr, hwi, hK, hdisk⟩ := h.ex
      rw [hdk, h.page, hwi.usz, hwi.quota, hremoved] at hs
      simp only [if_true] at hs
      unfold openAt at hs
      simp only [openStore_nil _ _ E.page8, hjd, if_true, Option.some.injEq, Prod.mk.injEq] at hs
      obtain ⟨rfl, rfl⟩ := hs
      have hmul1 : E.page * 1 ≤ E.page * max 1 n := Nat.mul_le_mul_left _ (Nat.le_max_left _ _)
      refine ⟨by simp [Looper.new, zeros]; omega, Store.empty, by simp [jobs, Looper.new, Phase.inflight, DupOk], ?_, ?_, ?_⟩
      · intro m
        simpa [jobs, Looper.new, Phase.inflight, view_nil, Store.run] using hw
      · simp [jobs, Looper.new, Phase.inflight, view_nil, Store.run]
      · intro _ content items hval
        have hval0 : Valid (E.codecs i) (WState.mk (zeros E.page) E.page E.page 0 false 8 none []) [] [] :=
          ⟨rfl, by simp [zeros], ⟨by simp, _, zeros_eq _ E.page8⟩, .nil _, rfl⟩
        obtain ⟨rfl, rfl⟩ := valid_unique hval hval0
        exact ⟨by simp [intoMap, Looper.new, view_nil, Store.run], by simp⟩

/-- A whole history. -/
theorem ginv_run {E : Env ι} {S0 : Store} {K c0 L n B : Nat} (es : List (Ev ι)) {cs : List Mutation} {s s' : Inst ι}
    {rs : List (Out Unit)} (h : DInv E S0 K cs s) (hg : GInv E c0 L n B s) (he : ∀ e ∈ es, e.Ok E)
    (hroom : E.Room (K + cs.length + (calls es).length)) (hs : run E.codecs s es = some (s', rs))
    (hw : ∀ m, Store.Within (entrySize E.recLen) n L (S0.run (cs ++ (calls es).take m)))
    (hB : 8 + c0 + L + E.page * max 1 n ≤ B) : GInv E c0 L n B s' := by
  induction es generalizing s rs cs with
  | nil =>
    simp only [run, Option.some.injEq, Prod.mk.injEq] at hs
    obtain ⟨rfl, rfl⟩ := hs
    exact hg
  | cons e es ih =>
    unfold run at hs
    split at hs
    · cases hs
    rename_i s1 r1 hs1
    split at hs
    · cases hs
    rename_i s2 rs2 hs2
    simp only [Option.some.injEq, Prod.mk.injEq] at hs
    obtain ⟨rfl, rfl⟩ := hs
    have hne : Nonempty ι := ⟨s.idx⟩
    have hcl : calls (e :: es) = e.call?.toList ++ calls es := by
      unfold calls
      simp only [List.filterMap_cons]
      cases e.call? <;> rfl
    have hr1 : E.Room (K + cs.length) := hroom.mono (by omega)
    obtain ⟨_, hd1⟩ := dinv_step h (he e List.mem_cons_self) hr1 hs1
    have hw1 : Store.Within (entrySize E.recLen) n L (S0.run (cs ++ e.call?.toList)) := by
      have := hw e.call?.toList.length
      rw [hcl, List.take_left' rfl] at this
      exact this
    have hg1 := ginv_step h hg (he e List.mem_cons_self) hr1 hs1 hw1 hB
    refine ih hd1 hg1 (fun x hx => he x (List.mem_cons_of_mem _ hx)) ?_ hs2 ?_
    · rw [hcl] at hroom
      simpa [Nat.add_assoc] using hroom
    · intro m
      have := hw (e.call?.toList.length + m)
      rw [hcl, List.take_length_add_append] at this
      simpa using this

end Inst
end Mmkv
