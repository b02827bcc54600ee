import Verif.Lemmas.Writer
import Verif.Lemmas.Looper
import Verif.Model.Instance
/-! The store as a whole refines a plain map, in memory and on disk. -/

namespace Mmkv
open Spec

variable {ι : Type}

/-- The mutation a call stands for. -/
def Ev.call? : Ev ι → Option Mutation
  | .put k t bs => some (.put k ⟨t, bs⟩)
  | .delete k => some (.delete k)
  | .clear => some .clear
  | _ => none

/-- The mutating calls of a history, in the order they took the lock. -/
def calls (es : List (Ev ι)) : List Mutation := es.filterMap Ev.call?

@[simp] theorem calls_nil : calls ([] : List (Ev ι)) = [] := rfl

theorem calls_cons (e : Ev ι) (es : List (Ev ι)) : calls (e :: es) = e.call?.toList ++ calls es := by
  unfold calls
  rw [List.filterMap_cons]
  cases e.call? <;> rfl

theorem calls_append (a b : List (Ev ι)) : calls (a ++ b) = calls a ++ calls b := by simp [calls]

/-- The mutation a job stands for. -/
def Job.mutation : Job → Mutation
  | .write b _ => b.mutation
  | .remove => .clear

/-- `jobs` is what `cs` amounts to, starting from `B`: some calls that change nothing have no job. -/
inductive Track (B : Store) : List Mutation → List Mutation → Prop
  | nil : Track B [] []
  | both {cs js} (m) (h : Track B cs js) (hm : ∀ k, m = .delete k → B.run cs k ≠ none) : Track B (cs ++ [m]) (js ++ [m])
  | skip {cs js} (k) (h : Track B cs js) (hk : B.run cs k = none) : Track B (cs ++ [.delete k]) js

theorem apply_delete_absent {S : Store} {k : String} (h : S k = none) : S.apply (.delete k) = S := by
  funext k'
  simp only [Store.apply]
  split
  · rename_i hk; rw [hk, h]
  · rfl

theorem run_append (s : Store) (a b : List Mutation) : s.run (a ++ b) = (s.run a).run b := by
  simp [Store.run]

theorem run_snoc (s : Store) (a : List Mutation) (m : Mutation) : s.run (a ++ [m]) = (s.run a).apply m := by
  simp [Store.run]

theorem Track.run_eq {B : Store} {cs js : List Mutation} (h : Track B cs js) : B.run cs = B.run js := by
  induction h with
  | nil => rfl
  | both m _ _ ih => rw [run_snoc, run_snoc, ih]
  | skip m _ hm ih => rw [run_snoc, apply_delete_absent hm, ih]

theorem Track.length_le {B : Store} {cs js : List Mutation} (h : Track B cs js) : js.length ≤ cs.length := by
  induction h with
  | nil => simp
  | both m _ _ ih => simpa using ih
  | skip m _ _ ih => simp; omega

theorem Track.take {B : Store} {cs js : List Mutation} (h : Track B cs js) (n : Nat) (hn : n ≤ js.length) :
    ∃ m, m ≤ cs.length ∧ B.run (cs.take m) = B.run (js.take n) := by
  induction h with
  | nil => exact ⟨0, by simp, by simp at hn; simp⟩
  | @both cs js m h _ ih =>
    by_cases hle : n ≤ js.length
    · obtain ⟨k, hk, he⟩ := ih hle
      refine ⟨k, by simp; omega, ?_⟩
      rw [List.take_append_of_le_length hk, List.take_append_of_le_length hle, he]
    · simp at hn
      have : n = js.length + 1 := by omega
      refine ⟨(cs ++ [m]).length, Nat.le_refl _, ?_⟩
      rw [List.take_of_length_le (Nat.le_refl _), List.take_of_length_le (by simp; omega), run_snoc, run_snoc, h.run_eq]
  | @skip cs js m h hm ih =>
    obtain ⟨k, hk, he⟩ := ih hn
    exact ⟨k, by simp; omega, by rw [List.take_append_of_le_length hk, he]⟩

theorem Track.snoc_inv {B : Store} {cs js : List Mutation} {m : Mutation} (h : Track B (cs ++ [m]) js) :
    (∃ js', js = js' ++ [m] ∧ Track B cs js' ∧ ∀ k, m = .delete k → B.run cs k ≠ none) ∨
      (∃ k, m = .delete k ∧ B.run cs k = none ∧ Track B cs js) := by
  generalize hc : cs ++ [m] = c at h
  cases h with
  | nil => simp at hc
  | @both cs' js' m' h hm =>
    obtain ⟨rfl, h1⟩ := List.append_inj' hc rfl
    injection h1 with h1
    subst h1
    exact .inl ⟨js', rfl, h, hm⟩
  | @skip cs' js' k h hk =>
    obtain ⟨rfl, h1⟩ := List.append_inj' hc rfl
    injection h1 with h1
    exact .inr ⟨k, h1, hk, h⟩

/-- The jobs are a function of the calls. -/
theorem Track.det {B : Store} {cs js js' : List Mutation} (h : Track B cs js) (h' : Track B cs js') : js = js' := by
  induction h generalizing js' with
  | nil =>
    generalize hc : ([] : List Mutation) = c at h'
    cases h' with
    | nil => rfl
    | both => simp at hc
    | skip => simp at hc
  | both m h hm ih =>
    rcases h'.snoc_inv with ⟨js2, rfl, h2, _⟩ | ⟨k, hk, hn, _⟩
    · rw [ih h2]
    · exact absurd hn (hm k hk)
  | skip k h hk ih =>
    rcases h'.snoc_inv with ⟨js2, rfl, h2, hm⟩ | ⟨_, _, _, h2⟩
    · exact absurd hk (hm k rfl)
    · exact ih h2

theorem Track.split {B : Store} {a b js : List Mutation} (h : Track B (a ++ b) js) :
    ∃ ja jb, js = ja ++ jb ∧ Track B a ja ∧ Track (B.run a) b jb := by
  generalize hc : a ++ b = c at h
  induction h generalizing a b with
  | nil =>
    simp only [List.append_eq_nil_iff] at hc
    obtain ⟨rfl, rfl⟩ := hc
    exact ⟨[], [], rfl, .nil, .nil⟩
  | @both cs js m h hm ih =>
    rcases List.eq_nil_or_concat b with rfl | ⟨b', x, rfl⟩
    · rw [List.append_nil] at hc
      subst hc
      exact ⟨js ++ [m], [], by simp, .both m h hm, .nil⟩
    · rw [List.concat_eq_append, ← List.append_assoc] at hc
      obtain ⟨rfl, h1⟩ := List.append_inj' hc rfl
      injection h1 with h1
      subst h1
      obtain ⟨ja, jb, rfl, ha, hb⟩ := ih rfl
      refine ⟨ja, jb ++ [x], by simp, ha, ?_⟩
      rw [List.concat_eq_append]
      exact .both x hb (by rw [← run_append]; exact hm)
  | @skip cs js k h hk ih =>
    rcases List.eq_nil_or_concat b with rfl | ⟨b', x, rfl⟩
    · rw [List.append_nil] at hc
      subst hc
      exact ⟨js, [], by simp, .skip k h hk, .nil⟩
    · rw [List.concat_eq_append, ← List.append_assoc] at hc
      obtain ⟨rfl, h1⟩ := List.append_inj' hc rfl
      injection h1 with h1
      subst h1
      obtain ⟨ja, jb, rfl, ha, hb⟩ := ih rfl
      refine ⟨ja, jb, rfl, ha, ?_⟩
      rw [List.concat_eq_append]
      exact .skip k hb (by rw [← run_append]; exact hk)

/-- The jobs of the current looper, including the one a call is about to queue. -/
def Phase.inflight : Phase → List Job
  | .push j => [j]
  | .clrPush => [.remove]
  | _ => []

/-- A clear is under way. -/
def Phase.clearing : Phase → Bool
  | .clrPush | .clrSend | .clrQuit | .clrJoin | .clrOpen => true
  | _ => false

/-- A `post` is between its two halves. -/
def Phase.sending : Phase → Bool
  | .send | .clrSend => true
  | _ => false

/-- The sender exists in these phases (of a store on which nothing has failed). -/
def Phase.open : Phase → Bool
  | .clrJoin | .clrOpen | .closed => false
  | _ => true

namespace Inst

/-- All jobs of the current looper. -/
def jobs (s : Inst ι) : List Job := s.lp.pushed ++ s.phase.inflight

end Inst

def Job.isWrite : Job → Bool
  | .write .. => true
  | .remove => false

/-- The job executor of a store. -/
def exec (codecs : ι → Codec) (i : ι) : Order → Job → Cb → Run Cb := fun o j cb => execJob (codecs i) o j cb

/-- Bookkeeping of a store on which no call has failed. -/
structure Book (codecs : ι → Codec) (s : Inst ι) : Prop where
  inv : ∃ cb0 : Cb, cb0.removed = false ∧ Looper.Inv (exec codecs s.idx) cb0 s.lp
  valid : s.valid = !s.phase.clearing
  poisoned : s.poisoned = false
  late : s.lp.late = []
  owed : s.lp.owed = if s.phase.sending then 1 else 0
  sender : s.lp.sender = s.phase.open
  kvClear : s.phase.clearing = true → s.kv = []
  jobsW : s.phase.clearing = false → ∀ j ∈ s.jobs, j.isWrite = true
  jobsC : s.phase.clearing = true → ∃ W, s.jobs = W ++ [.remove] ∧ ∀ j ∈ W, Job.isWrite j = true
  joined : s.phase = .clrOpen → s.lp.io = .exited ∧ s.joined = true
  removed : s.lp.cb.removed = true ↔ .remove ∈ s.lp.ran.map (·.2)

theorem tokenOk_ne_deleted {t : BitVec 32} (h : tokenOk t = true) : t ≠ deletedToken := by
  rintro rfl
  revert h; decide

theorem mutation_ofRaw {k : String} {t : BitVec 32} {bs : Bytes} (h : tokenOk t = true) :
    (Buffer.ofRaw k t bs).mutation = .put k ⟨t, bs⟩ := by
  have := tokenOk_ne_deleted h
  unfold Buffer.mutation Buffer.isDeleting Buffer.ofRaw
  simp [this, Buffer.entry]

theorem mutation_deleted (k : String) : (Buffer.deleted k).mutation = .delete k := by
  simp [Buffer.mutation, Buffer.isDeleting, Buffer.deleted]

theorem configNew_nil (page : Nat) : configNew page [] = zeros page := by simp [configNew]

theorem zeros_eq (n : Nat) (h : 8 ≤ n) : zeros n = beBytes 8 0 ++ [] ++ zeros (n - 8) := by
  have : beBytes 8 0 = zeros 8 := by decide
  rw [this]
  simp only [zeros, List.append_nil]
  rw [List.replicate_append_replicate]
  congr 1; omega

/-- A missing file opens as the empty map. -/
theorem openStore_nil (c : Codec) (page : Nat) (hp : 8 ≤ page) (q : Option Nat) :
    openStore c page [] 8 q = some ⟨[], {
      file := zeros page, mmLen := page, page := page, position := 0,
      needTrim := false, usizeBytes := 8, quota := q, log := [] }⟩ := by
  unfold openStore
  have hlen : (zeros page).length = page := by simp [zeros]
  have hv : Valid c {
      file := zeros page, mmLen := page, page := page, position := 0, needTrim := false,
      usizeBytes := 8, quota := q, log := [] } [] [] :=
    ⟨rfl, by simp [zeros], ⟨by simp, zeros (page - 8), zeros_eq page hp⟩, .nil _, rfl⟩
  simp only [configNew_nil, hlen]
  rw [if_neg (by omega)]
  rw [readItems_eq hv]
  simp [intoMap]

theorem beVal_zeros (n : Nat) : beVal (zeros n) = 0 := by
  unfold beVal zeros
  induction n with
  | zero => rfl
  | succ n ih => rw [List.replicate_succ, List.foldl_cons]; exact ih

theorem openStore_nil_kv {c : Codec} {page u : Nat} {q : Option Nat} {o : Opened}
    (h : openStore c page [] u q = some o) : o.kv = [] := by
  unfold openStore at h
  simp only [configNew_nil] at h
  split at h
  · cases h
  · split at h
    · cases h
    · rename_i items hi
      unfold WState.readItems at hi
      split at hi
      · cases hi
      · rename_i off hoff
        unfold WState.writeOffset at hoff
        split at hoff
        · cases hoff
        · split at hoff
          · cases hoff
          · simp only [] at hoff
            have : (zeros page).take WState.lenOffset = zeros (min WState.lenOffset page) := by
              simp [zeros]
            rw [this, beVal_zeros] at hoff
            split at hoff
            · injection hoff with hoff
              rw [← hoff] at hi
              simp [WState.lenOffset] at hi
              subst hi
              simp [intoMap] at h
              subst h; rfl
            · cases hoff

namespace Inst

theorem book_open {codecs : ι → Codec} {i : ι} {page : Nat} {file : Bytes} {u : Nat} {q : Option Nat} {s : Inst ι}
    (h : openAt codecs i page file u q = some s) : Book codecs s := by
  unfold openAt at h
  split at h
  · cases h
  · rename_i o ho
    injection h with h
    subst h
    exact ⟨⟨_, rfl, Looper.inv_new _ _⟩, rfl, rfl, rfl, rfl, rfl, by simp [Phase.clearing],
      by simp [jobs, Looper.new, Phase.inflight], by simp [Phase.clearing], by simp, by simp [Looper.new]⟩

/-- One event keeps the books and does to the map what the call says, as long as no call fails. -/
theorem book_step {codecs : ι → Codec} {s s' : Inst ι} {e : Ev ι} {r : Option (Out Unit)} (h : Book codecs s)
    (hs : step codecs s e = some (s', r)) (hr : ∀ x, r = some x → x = .ok ()) :
    Book codecs s' ∧ view s'.kv = (view s.kv).run e.call?.toList := by
  obtain ⟨⟨cb0, hcb0, hinv⟩, hvalid, hpois, hlate, howed, hsend, hkc, hjw, hjc, hjoin, hrem⟩ := h
  cases e with
  | put k t bs =>
    simp only [step] at hs
    split at hs
    · cases hs
    rename_i hg
    have hidle : s.phase = .idle := by
      cases hp : s.phase <;> simp [hp] at hg ⊢
    have htok : tokenOk t = true := by simpa [hidle] using hg
    simp only [hpois, Bool.false_eq_true, if_false] at hs
    simp only [hvalid, hidle, Phase.clearing, Bool.not_false, Bool.true_eq_false, if_false, Option.some.injEq,
      Prod.mk.injEq] at hs
    obtain ⟨rfl, rfl⟩ := hs
    refine ⟨⟨⟨cb0, hcb0, hinv⟩, ?_, rfl, hlate, ?_, ?_, ?_, ?_, ?_, ?_, hrem⟩, ?_⟩
    · simp [Phase.clearing]
    · simpa [hidle, Phase.sending] using howed
    · simpa [hidle, Phase.open] using hsend
    · simp [Phase.clearing]
    · intro _ j hj
      simp only [jobs, Phase.inflight, List.mem_append, List.mem_singleton] at hj
      rcases hj with hj | hj
      · exact hjw (by simp [hidle, Phase.clearing]) j (by simp [jobs, hj])
      · subst hj; rfl
    · simp [Phase.clearing]
    · simp
    · simp only [Ev.call?, Option.toList, Store.run, List.foldl]
      rw [view_insert]
      rfl
  | delete k =>
    simp only [step] at hs
    split at hs
    · cases hs
    rename_i hg
    have hidle : s.phase = .idle := by simpa using hg
    simp only [hpois, Bool.false_eq_true, if_false] at hs
    simp only [hvalid, hidle, Phase.clearing, Bool.not_false, Bool.true_eq_false, if_false] at hs
    split at hs
    · rename_i hn
      simp only [Option.some.injEq, Prod.mk.injEq] at hs
      obtain ⟨rfl, rfl⟩ := hs
      refine ⟨⟨⟨cb0, hcb0, hinv⟩, hvalid, hpois, hlate, howed, hsend, hkc, hjw, hjc, hjoin, hrem⟩, ?_⟩
      funext k'
      simp only [Ev.call?, Option.toList, Store.run, List.foldl, Store.apply]
      split
      · rename_i hk
        subst hk
        simp only [Option.isNone_iff_eq_none] at hn
        simp [view, hn]
      · rfl
    · simp only [Option.some.injEq, Prod.mk.injEq] at hs
      obtain ⟨rfl, rfl⟩ := hs
      refine ⟨⟨⟨cb0, hcb0, hinv⟩, ?_, rfl, hlate, ?_, ?_, ?_, ?_, ?_, ?_, hrem⟩, ?_⟩
      · simp [Phase.clearing]
      · simpa [hidle, Phase.sending] using howed
      · simpa [hidle, Phase.open] using hsend
      · simp [Phase.clearing]
      · intro _ j hj
        simp only [jobs, Phase.inflight, List.mem_append, List.mem_singleton] at hj
        rcases hj with hj | hj
        · exact hjw (by simp [hidle, Phase.clearing]) j (by simp [jobs, hj])
        · subst hj; rfl
      · simp [Phase.clearing]
      · simp
      · simp only [Ev.call?, Option.toList, Store.run, List.foldl]
        rw [view_erase]
  | clear =>
    simp only [step] at hs
    split at hs
    · cases hs
    rename_i hg
    have hidle : s.phase = .idle := by simpa using hg
    simp only [hpois, Bool.false_eq_true, if_false] at hs
    simp only [hvalid, hidle, Phase.clearing, Bool.not_false, Bool.true_eq_false, if_false, Option.some.injEq,
      Prod.mk.injEq] at hs
    obtain ⟨rfl, rfl⟩ := hs
    refine ⟨⟨⟨cb0, hcb0, hinv⟩, ?_, rfl, hlate, ?_, ?_, ?_, ?_, ?_, ?_, hrem⟩, ?_⟩
    · simp [Phase.clearing]
    · simpa [hidle, Phase.sending] using howed
    · simpa [hidle, Phase.open] using hsend
    · simp
    · simp [Phase.clearing]
    · intro _
      exact ⟨s.lp.pushed, rfl, fun j hj => hjw (by simp [hidle, Phase.clearing]) j (by simp [jobs, hj])⟩
    · simp
    · simp [Ev.call?, Store.run, Store.apply, view_nil]
  | drop =>
    simp only [step] at hs
    split at hs
    · cases hs
    rename_i hg
    have hidle : s.phase = .idle := by simpa using hg
    simp only [Option.some.injEq, Prod.mk.injEq] at hs
    obtain ⟨rfl, rfl⟩ := hs
    have ho : s.lp.owed = 0 := by simpa [hidle, Phase.sending] using howed
    refine ⟨⟨⟨cb0, hcb0, Looper.inv_drop hinv ho⟩, ?_, hpois, hlate, ?_, ?_, ?_, ?_, ?_, ?_, hrem⟩, ?_⟩
    · simp [hvalid, hidle, Phase.clearing]
    · simpa [Phase.sending, Looper.dropSender] using ho
    · rfl
    · simp [Phase.clearing]
    · intro _ j hj
      exact hjw (by simp [hidle, Phase.clearing]) j (by simpa [jobs, hidle, Phase.inflight, Looper.dropSender] using hj)
    · simp [Phase.clearing]
    · simp
    · simp [Ev.call?, Store.run]
  | io o =>
    simp only [step] at hs
    split at hs
    · cases hs
    rename_i lp hlp
    simp only [Option.some.injEq, Prod.mk.injEq] at hs
    obtain ⟨rfl, rfl⟩ := hs
    have hinv' := Looper.inv_io hinv o hlp
    -- what an io step leaves alone
    have hsame : lp.pushed = s.lp.pushed ∧ lp.late = s.lp.late ∧ lp.owed = s.lp.owed ∧ lp.sender = s.lp.sender ∧
        (s.lp.io = .exited → False) ∧
        ((lp.cb = s.lp.cb ∧ lp.ran = s.lp.ran) ∨
          ∃ j, lp.ran = s.lp.ran ++ [(o, j)] ∧ lp.cb = (execJob (codecs s.idx) o j s.lp.cb).state) := by
      unfold Looper.ioStep at hlp
      cases hio : s.lp.io with
      | recv =>
        simp only [hio] at hlp
        split at hlp
        · injection hlp with hlp; subst hlp; simp
        · injection hlp with hlp; subst hlp; simp
        · split at hlp
          · cases hlp
          · injection hlp with hlp; subst hlp; simp
      | swap => simp only [hio] at hlp; injection hlp with hlp; subst hlp; simp
      | run =>
        simp only [hio] at hlp
        split at hlp
        · injection hlp with hlp; subst hlp; simp
        · rename_i j rest _
          split at hlp
          · rename_i cb hcb
            injection hlp with hlp; subst hlp
            refine ⟨rfl, rfl, rfl, rfl, by simp, .inr ⟨j, rfl, ?_⟩⟩
            simp [hcb]
          · rename_i cb hcb
            injection hlp with hlp; subst hlp
            refine ⟨rfl, rfl, rfl, rfl, by simp, .inr ⟨j, rfl, ?_⟩⟩
            simp [hcb]
      | unwinding => simp only [hio] at hlp; injection hlp with hlp; subst hlp; simp
      | exited => simp [hio] at hlp
      | dead => simp [hio] at hlp
    obtain ⟨hp, hl, ho, hsd, hex, hcase⟩ := hsame
    refine ⟨⟨⟨cb0, hcb0, hinv'⟩, hvalid, hpois, by simp [hl, hlate], by simp [ho, howed], by simp [hsd, hsend], hkc,
      ?_, ?_, ?_, ?_⟩, ?_⟩
    · simpa [jobs, hp] using hjw
    · simpa [jobs, hp] using hjc
    · intro hc; exact absurd (hjoin hc).1 hex
    · rcases hcase with ⟨h1, h2⟩ | ⟨j, h1, h2⟩
      · simpa [h1, h2] using hrem
      · simp only [h1, h2]
        cases j with
        | write b dup =>
          simp only [execJob]
          split <;> simpa using hrem
        | remove => simp [execJob]
    · simp [Ev.call?, Store.run]
  | api i =>
    have hcall : ∀ v : Store, v.run (Ev.api i : Ev ι).call?.toList = v := fun v => rfl
    rw [hcall]
    simp only [step] at hs
    cases hp : s.phase with
    | idle => simp [hp] at hs
    | closed => simp [hp] at hs
    | push j =>
      simp only [hp, Option.some.injEq, Prod.mk.injEq] at hs
      obtain ⟨rfl, rfl⟩ := hs
      have hsd : s.lp.sender = true := by simpa [hp, Phase.open] using hsend
      refine ⟨⟨⟨cb0, hcb0, Looper.inv_push hinv j⟩, ?_, hpois, ?_, ?_, ?_, ?_, ?_, ?_, ?_, ?_⟩, rfl⟩
      · simp [hvalid, hp, Phase.clearing]
      · simp [Looper.push, hsd, hlate]
      · simpa [Looper.push, hsd, hp, Phase.sending] using howed
      · simp [Looper.push, hsd, Phase.open]
      · simp [Phase.clearing]
      · intro _ j' hj'
        refine hjw (by simp [hp, Phase.clearing]) j' ?_
        simpa [jobs, hp, Phase.inflight, Looper.push, hsd] using hj'
      · simp [Phase.clearing]
      · simp
      · simpa [Looper.push, hsd] using hrem
    | send =>
      have hsd : s.lp.sender = true := by simpa [hp, Phase.open] using hsend
      have ho : s.lp.owed = 1 := by simpa [hp, Phase.sending] using howed
      simp only [hp, Looper.send, hsd, if_true] at hs
      by_cases hd : s.lp.io = .dead ∨ s.lp.io = .exited
      · simp only [hd, if_true, Option.some.injEq, Prod.mk.injEq] at hs
        have := hr _ hs.2.symm
        simp at this
      · simp only [hd, if_false, if_true, Option.some.injEq, Prod.mk.injEq] at hs
        obtain ⟨rfl, rfl⟩ := hs
        have hi := Looper.inv_send hinv (by omega)
        simp only [Looper.send, hsd, if_true, hd, if_false] at hi
        refine ⟨⟨⟨cb0, hcb0, hi⟩, ?_, hpois, hlate, ?_, ?_, ?_, ?_, ?_, ?_, hrem⟩, rfl⟩
        · simp [hvalid, hp, Phase.clearing]
        · simp [ho, Phase.sending]
        · simp [Phase.open]
        · simp [Phase.clearing]
        · intro _ j' hj'
          refine hjw (by simp [hp, Phase.clearing]) j' ?_
          simpa [jobs, hp, Phase.inflight] using hj'
        · simp [Phase.clearing]
        · simp
    | clrPush =>
      simp only [hp, Option.some.injEq, Prod.mk.injEq] at hs
      obtain ⟨rfl, rfl⟩ := hs
      have hsd : s.lp.sender = true := by simpa [hp, Phase.open] using hsend
      refine ⟨⟨⟨cb0, hcb0, Looper.inv_push hinv _⟩, ?_, hpois, ?_, ?_, ?_, ?_, ?_, ?_, ?_, ?_⟩, rfl⟩
      · simp [hvalid, hp, Phase.clearing]
      · simp [Looper.push, hsd, hlate]
      · simpa [Looper.push, hsd, hp, Phase.sending] using howed
      · simp [Looper.push, hsd, Phase.open]
      · intro _; exact hkc (by simp [hp, Phase.clearing])
      · simp [Phase.clearing]
      · intro _
        obtain ⟨W, hW, hW'⟩ := hjc (by simp [hp, Phase.clearing])
        refine ⟨W, ?_, hW'⟩
        rw [← hW]
        simp [jobs, hp, Phase.inflight, Looper.push, hsd]
      · simp
      · simpa [Looper.push, hsd] using hrem
    | clrSend =>
      have hsd : s.lp.sender = true := by simpa [hp, Phase.open] using hsend
      have ho : s.lp.owed = 1 := by simpa [hp, Phase.sending] using howed
      simp only [hp, Looper.send, hsd, if_true] at hs
      by_cases hd : s.lp.io = .dead ∨ s.lp.io = .exited
      · simp only [hd, if_true, Bool.false_eq_true, if_false, Option.some.injEq, Prod.mk.injEq] at hs
        have := hr _ hs.2.symm
        simp at this
      · simp only [hd, if_false, if_true, Option.some.injEq, Prod.mk.injEq] at hs
        obtain ⟨rfl, rfl⟩ := hs
        have hi := Looper.inv_send hinv (by omega)
        simp only [Looper.send, hsd, if_true, hd, if_false] at hi
        refine ⟨⟨⟨cb0, hcb0, hi⟩, ?_, hpois, hlate, ?_, ?_, ?_, ?_, ?_, ?_, hrem⟩, rfl⟩
        · simp [hvalid, hp, Phase.clearing]
        · simp [ho, Phase.sending]
        · simp [Phase.open]
        · intro _; exact hkc (by simp [hp, Phase.clearing])
        · simp [Phase.clearing]
        · intro _
          simpa [jobs, hp, Phase.inflight] using hjc (by simp [hp, Phase.clearing])
        · simp
    | clrQuit =>
      have hsd : s.lp.sender = true := by simpa [hp, Phase.open] using hsend
      have ho : s.lp.owed = 0 := by simpa [hp, Phase.sending] using howed
      simp only [hp, Looper.quitSend, hsd, if_true] at hs
      by_cases hd : s.lp.io = .dead ∨ s.lp.io = .exited
      · simp only [hd, if_true, Bool.false_eq_true, if_false, Option.some.injEq, Prod.mk.injEq] at hs
        have := hr _ hs.2.symm
        simp at this
      · simp only [hd, if_false, if_true, Option.some.injEq, Prod.mk.injEq] at hs
        obtain ⟨rfl, rfl⟩ := hs
        have hi := Looper.inv_quit hinv ho
        simp only [Looper.quitSend, hsd, if_true, hd, if_false] at hi
        refine ⟨⟨⟨cb0, hcb0, hi⟩, ?_, hpois, hlate, ?_, ?_, ?_, ?_, ?_, ?_, hrem⟩, rfl⟩
        · simp [hvalid, hp, Phase.clearing]
        · simp [ho, Phase.sending]
        · simp [Phase.open]
        · intro _; exact hkc (by simp [hp, Phase.clearing])
        · simp [Phase.clearing]
        · intro _
          simpa [jobs, hp, Phase.inflight] using hjc (by simp [hp, Phase.clearing])
        · simp
    | clrJoin =>
      simp only [hp] at hs
      have hsd : s.lp.sender = false := by simpa [hp, Phase.open] using hsend
      have ho : s.lp.owed = 0 := by simpa [hp, Phase.sending] using howed
      by_cases he : s.lp.io = .exited
      · simp only [he, if_true, Option.some.injEq, Prod.mk.injEq] at hs
        obtain ⟨rfl, rfl⟩ := hs
        refine ⟨⟨⟨cb0, hcb0, hinv⟩, ?_, hpois, hlate, ?_, ?_, ?_, ?_, ?_, ?_, hrem⟩, rfl⟩
        · simp [hvalid, hp, Phase.clearing]
        · simp [ho, Phase.sending]
        · simp [Phase.open, hsd]
        · intro _; exact hkc (by simp [hp, Phase.clearing])
        · simp [Phase.clearing]
        · intro _
          simpa [jobs, hp, Phase.inflight] using hjc (by simp [hp, Phase.clearing])
        · simp [he]
      · simp only [he, if_false] at hs
        split at hs
        · simp only [Option.some.injEq, Prod.mk.injEq] at hs
          have := hr _ hs.2.symm
          simp at this
        · cases hs
    | clrOpen =>
      simp only [hp] at hs
      obtain ⟨hex, hjd⟩ := hjoin hp
      have hclr : s.phase.clearing = true := by simp [hp, Phase.clearing]
      have hremoved : s.lp.cb.removed = true := by
        rw [hrem]
        obtain ⟨W, hW, _⟩ := hjc hclr
        have hpre := hinv.exited_all hex
        obtain ⟨t, ht⟩ := hpre
        rw [← ht]
        have : Job.remove ∈ s.jobs := by rw [hW]; simp
        simp only [jobs, hp, Phase.inflight, List.append_nil] at this
        exact List.mem_append_left _ this
      have hdisk : s.disk = [] := by simp [disk, hremoved]
      split at hs
      · simp only [Option.some.injEq, Prod.mk.injEq] at hs
        have := hr _ hs.2.symm
        simp at this
      · rename_i s1 hopen
        simp only [hjd, if_true, Option.some.injEq, Prod.mk.injEq] at hs
        obtain ⟨rfl, rfl⟩ := hs
        refine ⟨book_open hopen, ?_⟩
        rw [hdisk] at hopen
        have hkv : s1.kv = [] := by
          unfold openAt at hopen
          split at hopen
          · cases hopen
          · rename_i o ho
            injection hopen with hopen
            subst hopen
            exact openStore_nil_kv ho
        rw [hkv, hkc hclr]

/-- A whole history. -/
theorem book_run {codecs : ι → Codec} (es : List (Ev ι)) {s s' : Inst ι} {rs : List (Out Unit)} (h : Book codecs s)
    (hs : run codecs s es = some (s', rs)) (hr : ∀ x ∈ rs, x = .ok ()) :
    Book codecs s' ∧ view s'.kv = (view s.kv).run (calls es) := by
  induction es generalizing s rs with
  | nil =>
    simp only [run, Option.some.injEq, Prod.mk.injEq] at hs
    obtain ⟨rfl, rfl⟩ := hs
    exact ⟨h, rfl⟩
  | cons e es ih =>
    unfold run at hs
    split at hs
    · cases hs
    · rename_i s1 r hstep
      split at hs
      · cases hs
      · rename_i s2 rs2 hrun
        simp only [Option.some.injEq, Prod.mk.injEq] at hs
        obtain ⟨rfl, rfl⟩ := hs
        obtain ⟨hb, hv⟩ := book_step h hstep (by
          intro x hx; exact hr x (by simp [hx]))
        obtain ⟨hb2, hv2⟩ := ih hb hrun (fun x hx => hr x (by simp [hx]))
        exact ⟨hb2, by rw [hv2, hv, calls_cons, ← run_append]⟩

end Inst
end Mmkv
