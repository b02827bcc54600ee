import Verif.Props.Quota
/-!
# C59: clear_data and earlier failures
-/

namespace Mmkv
open Spec Inst
variable {ι : Type}

namespace Inst

/-- Bookkeeping of a store whatever has failed so far. -/
structure Kept (codecs : ι → Codec) (s : Inst ι) : Prop where
  inv : ∃ cb0 : Cb, cb0.removed = false ∧ Looper.Inv (exec codecs s.idx) cb0 s.lp
  owed : s.lp.owed = if s.phase.sending && s.lp.sender then 1 else 0
  sender : s.valid = true → s.phase ≠ .closed → s.lp.sender = true
  valid : s.phase.clearing = true → s.valid = false

theorem kept_open {codecs : ι → Codec} {i : ι} {page : Nat} {file : Bytes} {u : Nat} {q : Option Nat} {s : Inst ι}
    (h : openAt codecs i page file u q = some s) : Kept codecs s := by
  unfold openAt at h
  split at h
  · cases h
  · injection h with h
    subst h
    exact ⟨⟨_, rfl, Looper.inv_new _ _⟩, rfl, fun _ _ => rfl, fun h => by cases h⟩

theorem kept_push {codecs : ι → Codec} {s : Inst ι} (h : Kept codecs s) (j : Job) {ph : Phase} (hs0 : s.phase.sending = false)
    (hs : ph.sending = true) (hcl : ph.clearing = true → s.phase.clearing = true) (hcl' : s.phase ≠ .closed) :
    Kept codecs { s with lp := Looper.push s.lp j, phase := ph } := by
  obtain ⟨⟨cb0, hr, hinv⟩, ho, hsd, hv⟩ := h
  refine ⟨⟨cb0, hr, Looper.inv_push hinv j⟩, ?_, ?_, fun hc => hv (hcl hc)⟩
  · rw [hs0] at ho
    unfold Looper.push
    cases hse : s.lp.sender <;> simp [hs] <;> simpa [hse] using ho
  · intro hval _
    have := hsd hval hcl'
    unfold Looper.push
    rw [if_pos this]
    exact this

theorem kept_send {codecs : ι → Codec} {s : Inst ι} (h : Kept codecs s) {ph : Phase} (hs0 : s.phase.sending = true)
    (hs : ph.sending = false) (hcl : ph.clearing = true → s.phase.clearing = true) (hcl' : s.phase ≠ .closed) :
    Kept codecs { s with lp := (Looper.send s.lp).1, phase := ph } := by
  obtain ⟨⟨cb0, hr, hinv⟩, ho, hsd, hv⟩ := h
  have hse : (Looper.send s.lp).1.sender = s.lp.sender := by
    unfold Looper.send
    split
    · split <;> rfl
    · rfl
  cases hx : s.lp.sender with
  | false =>
    have : (Looper.send s.lp).1 = s.lp := by simp [Looper.send, hx]
    rw [this]
    refine ⟨⟨cb0, hr, hinv⟩, ?_, fun hval _ => hsd hval hcl', fun hc => hv (hcl hc)⟩
    simp only [hs]
    rw [ho, hx]; simp
  | true =>
    rw [hs0, hx] at ho
    have ho : s.lp.owed = 1 := by simpa using ho
    refine ⟨⟨cb0, hr, Looper.inv_send hinv (by omega)⟩, ?_, fun hval _ => by show (Looper.send s.lp).1.sender = true; rw [hse]; exact hx, fun hc => hv (hcl hc)⟩
    simp only [hs]
    unfold Looper.send
    rw [if_pos hx]
    split <;> simp [ho]

theorem kept_step {codecs : ι → Codec} {s s' : Inst ι} {e : Ev ι} {r : Option (Out Unit)} (h : Kept codecs s)
    (hs : step codecs s e = some (s', r)) : Kept codecs s' := by
  have h0 := h
  obtain ⟨⟨cb0, hr, hinv⟩, ho, hsd, hv⟩ := h
  cases e with
  | put k t bs =>
    simp only [step] at hs
    split at hs
    · cases hs
    rename_i hg
    have hidle : s.phase = .idle := by cases hp : s.phase <;> simp [hp] at hg ⊢
    split at hs
    · cases hs; exact h0
    split at hs
    · cases hs; exact h0
    cases hs
    refine ⟨⟨cb0, hr, hinv⟩, ?_, fun hval _ => hsd hval (by rw [hidle]; exact fun h => by cases h), fun hc => by cases hc⟩
    rw [ho, hidle]; rfl
  | delete k =>
    simp only [step] at hs
    split at hs
    · cases hs
    rename_i hg
    have hidle : s.phase = .idle := by simpa using hg
    split at hs
    · cases hs; exact h0
    split at hs
    · cases hs; exact h0
    split at hs
    · cases hs; exact h0
    cases hs
    refine ⟨⟨cb0, hr, hinv⟩, ?_, fun hval _ => hsd hval (by rw [hidle]; exact fun h => by cases h), fun hc => by cases hc⟩
    rw [ho, hidle]; rfl
  | clear =>
    simp only [step] at hs
    split at hs
    · cases hs
    rename_i hg
    have hidle : s.phase = .idle := by simpa using hg
    split at hs
    · cases hs; exact h0
    split at hs
    · rename_i hval
      cases hs
      refine ⟨⟨cb0, hr, hinv⟩, ?_, fun hval' _ => (by rw [hval] at hval'; cases hval'), fun _ => hval⟩
      rw [ho, hidle]; rfl
    · cases hs
      refine ⟨⟨cb0, hr, hinv⟩, ?_, fun hval' _ => (by cases hval'), fun _ => rfl⟩
      rw [ho, hidle]; rfl
  | drop =>
    simp only [step] at hs
    split at hs
    · cases hs
    rename_i hg
    have hidle : s.phase = .idle := by simpa using hg
    cases hs
    have ho : s.lp.owed = 0 := by rw [ho, hidle]; rfl
    exact ⟨⟨cb0, hr, Looper.inv_drop hinv ho⟩, ho, fun _ hne => absurd rfl hne, fun hc => by cases hc⟩
  | io o =>
    simp only [step] at hs
    split at hs
    · cases hs
    rename_i lp hlp
    cases hs
    have hkeep : lp.owed = s.lp.owed ∧ lp.sender = s.lp.sender := by
      unfold Looper.ioStep at hlp
      repeat' split at hlp
      all_goals first | cases hlp; done | (cases hlp; exact ⟨rfl, rfl⟩)
    refine ⟨⟨cb0, hr, Looper.inv_io hinv o hlp⟩, ?_, fun hval hne => ?_, hv⟩
    · show lp.owed = if s.phase.sending && lp.sender then 1 else 0
      rw [hkeep.1, hkeep.2]; exact ho
    · show lp.sender = true
      rw [hkeep.2]; exact hsd hval hne
  | api i =>
    simp only [step] at hs
    cases hp : s.phase with
    | idle => simp [hp] at hs
    | closed => simp [hp] at hs
    | push j =>
      simp only [hp] at hs
      cases hs
      exact kept_push h0 j (by rw [hp]; rfl) rfl (fun h => by cases h) (by rw [hp]; exact fun h => by cases h)
    | clrPush =>
      simp only [hp] at hs
      cases hs
      exact kept_push h0 _ (by rw [hp]; rfl) rfl (fun h => by rw [hp]; rfl) (by rw [hp]; exact fun h => by cases h)
    | send =>
      simp only [hp] at hs
      cases hs
      exact kept_send h0 (by rw [hp]; rfl) rfl (fun h => by cases h) (by rw [hp]; exact fun h => by cases h)
    | clrSend =>
      simp only [hp] at hs
      split at hs
      · cases hs
        exact kept_send h0 (by rw [hp]; rfl) rfl (fun h => by rw [hp]; rfl) (by rw [hp]; exact fun h => by cases h)
      · cases hs
        exact kept_send h0 (by rw [hp]; rfl) rfl (fun h => by cases h) (by rw [hp]; exact fun h => by cases h)
    | clrQuit =>
      have hval := hv (by rw [hp]; rfl)
      have ho : s.lp.owed = 0 := by rw [ho, hp]; rfl
      have hq := Looper.inv_quit hinv ho
      have hq0 : (Looper.quitSend s.lp).1.owed = 0 := by
        unfold Looper.quitSend
        split
        · split <;> exact ho
        · exact ho
      simp only [hp] at hs
      split at hs
      · cases hs
        exact ⟨⟨cb0, hr, hq⟩, hq0, fun hval' _ => (by rw [hval] at hval'; cases hval'), fun _ => hval⟩
      · cases hs
        exact ⟨⟨cb0, hr, hq⟩, hq0, fun hval' _ => (by rw [hval] at hval'; cases hval'), fun _ => hval⟩
    | clrJoin =>
      have hval := hv (by rw [hp]; rfl)
      have ho : s.lp.owed = 0 := by rw [ho, hp]; rfl
      simp only [hp] at hs
      split at hs
      · cases hs
        exact ⟨⟨cb0, hr, hinv⟩, ho, fun hval' _ => (by rw [hval] at hval'; cases hval'), fun _ => hval⟩
      · split at hs
        · cases hs
          exact ⟨⟨cb0, hr, hinv⟩, ho, fun hval' _ => (by rw [hval] at hval'; cases hval'), fun _ => hval⟩
        · cases hs
    | clrOpen =>
      have hval := hv (by rw [hp]; rfl)
      have ho : s.lp.owed = 0 := by rw [ho, hp]; rfl
      simp only [hp] at hs
      split at hs
      · cases hs
        exact ⟨⟨cb0, hr, hinv⟩, ho, fun hval' _ => (by rw [hval] at hval'; cases hval'), fun _ => hval⟩
      · rename_i s1 hs1
        have hk := kept_open hs1
        split at hs
        · cases hs; exact hk
        split at hs
        · cases hs; exact hk
        split at hs
        · cases hs; exact ⟨hk.inv, hk.owed, hk.sender, hk.valid⟩
        · cases hs

theorem kept_run {codecs : ι → Codec} (es : List (Ev ι)) {s s' : Inst ι} {rs : List (Out Unit)} (h : Kept codecs s)
    (hs : run codecs s es = some (s', rs)) : Kept codecs s' := by
  induction es generalizing s rs with
  | nil => simp only [run, Option.some.injEq, Prod.mk.injEq] at hs; obtain ⟨rfl, _⟩ := hs; exact h
  | cons e es ih =>
    unfold run at hs
    split at hs
    · cases hs
    rename_i s1 r1 hs1
    split at hs
    · cases hs
    rename_i s2 rs2 h2
    cases hs
    exact ih (kept_step h hs1) h2

/-- Where a `clear_data` that started on a working store is. -/
inductive Clearing (s : Inst ι) : Prop
  | push (h : s.phase = .clrPush) (hs : s.lp.sender = true)
  | send (h : s.phase = .clrSend) (hm : Job.remove ∈ s.lp.pushed)
  | quit (h : s.phase = .clrQuit) (hm : Job.remove ∈ s.lp.pushed)
  | join (h : s.phase = .clrJoin) (hm : Job.remove ∈ s.lp.pushed)
  | open (h : s.phase = .clrOpen) (hm : Job.remove ∈ s.lp.pushed) (hx : s.lp.io = .exited)

theorem execAll_removed {c : Codec} : ∀ (l : List (Order × Job)) (t t' : Cb),
    Looper.execAll (fun o j cb => execJob c o j cb) t l = .done t' → .remove ∈ l.map (·.2) → t'.removed = true := by
  have keep : ∀ (l : List (Order × Job)) (t t' : Cb),
      Looper.execAll (fun o j cb => execJob c o j cb) t l = .done t' → t.removed = true → t'.removed = true := by
    intro l
    induction l with
    | nil => intro t t' h ht; cases h; exact ht
    | cons x l ih =>
      intro t t' h ht
      obtain ⟨o, j⟩ := x
      obtain ⟨t1, h1, h2⟩ := andThen_inv h
      refine ih t1 t' h2 ?_
      cases j with
      | remove => cases h1; rfl
      | write b dup =>
        simp only [execJob] at h1
        split at h1
        · cases h1; exact ht
        · cases h1
  intro l
  induction l with
  | nil => intro t t' _ hm; simp at hm
  | cons x l ih =>
    intro t t' h hm
    obtain ⟨o, j⟩ := x
    obtain ⟨t1, h1, h2⟩ := andThen_inv h
    simp only [List.map_cons, List.mem_cons] at hm
    rcases hm with rfl | hm
    · refine keep l t1 t' h2 ?_
      cases h1; rfl
    · exact ih t1 t' h2 hm

/-- One step of a `clear_data` that started on a working store. -/
theorem clearing_step {codecs : ι → Codec} {s s' : Inst ι} {e : Ev ι} {r : Option (Out Unit)} (h : Kept codecs s) (hc : s.Clearing)
    (hs : step codecs s e = some (s', r)) :
    (r = none ∧ s'.Clearing) ∨ (∃ x, r = some x ∧ (x = .ok () → ∃ j, e = .api j ∧
      openAt codecs j s.lp.cb.ws.page [] s.lp.cb.ws.usizeBytes s.lp.cb.ws.quota = some s')) := by
  have hne : s.phase ≠ .idle := by cases hc <;> simp_all
  cases e with
  | put k t bs => simp [step, hne] at hs
  | delete k => simp [step, hne] at hs
  | clear => simp [step, hne] at hs
  | drop => simp [step, hne] at hs
  | io o =>
    simp only [step] at hs
    split at hs
    · cases hs
    rename_i lp hlp
    cases hs
    left
    refine ⟨rfl, ?_⟩
    have hkeep : lp.pushed = s.lp.pushed ∧ lp.sender = s.lp.sender ∧ s.lp.io ≠ .exited := by
      unfold Looper.ioStep at hlp
      refine ⟨?_, ?_, fun hx => by simp [hx] at hlp⟩
      all_goals
        repeat' split at hlp
        all_goals first | cases hlp; done | (cases hlp; rfl)
    cases hc with
    | push h hs => exact .push h (by show lp.sender = true; rw [hkeep.2.1]; exact hs)
    | send h hm => exact .send h (by show _ ∈ lp.pushed; rw [hkeep.1]; exact hm)
    | quit h hm => exact .quit h (by show _ ∈ lp.pushed; rw [hkeep.1]; exact hm)
    | join h hm => exact .join h (by show _ ∈ lp.pushed; rw [hkeep.1]; exact hm)
    | «open» h hm hx => exact absurd hx hkeep.2.2
  | api i =>
    simp only [step] at hs
    cases hc with
    | push hp hsd =>
      simp only [hp] at hs
      cases hs
      exact .inl ⟨rfl, .send rfl (by simp [Looper.push, hsd])⟩
    | send hp hm =>
      have hpu : (Looper.send s.lp).1.pushed = s.lp.pushed := by
        unfold Looper.send
        split
        · split <;> rfl
        · rfl
      simp only [hp] at hs
      split at hs
      · cases hs
        exact .inl ⟨rfl, .quit rfl (by rw [hpu]; exact hm)⟩
      · cases hs
        exact .inr ⟨_, rfl, fun h => by cases h⟩
    | quit hp hm =>
      have hpu : (Looper.quitSend s.lp).1.pushed = s.lp.pushed := by
        unfold Looper.quitSend
        split
        · split <;> rfl
        · rfl
      simp only [hp] at hs
      split at hs
      · cases hs
        exact .inl ⟨rfl, .join rfl (by rw [hpu]; exact hm)⟩
      · cases hs
        exact .inr ⟨_, rfl, fun h => by cases h⟩
    | join hp hm =>
      simp only [hp] at hs
      split at hs
      · rename_i hx
        cases hs
        exact .inl ⟨rfl, .open rfl hm hx⟩
      · split at hs
        · cases hs
          exact .inr ⟨_, rfl, fun h => by cases h⟩
        · cases hs
    | «open» hp hm hx =>
      obtain ⟨cb0, _, hinv⟩ := h.inv
      have hcb := hinv.cbRan
      simp only [hx, reduceCtorEq, or_self, if_false] at hcb
      have hrem : s.lp.cb.removed = true := execAll_removed _ _ _ hcb ((hinv.exited_all hx).subset hm)
      have hd : s.disk = [] := by simp [disk, hrem]
      simp only [hp, hd, hrem, if_true] at hs
      split at hs
      · cases hs
        exact .inr ⟨_, rfl, fun h => by cases h⟩
      · rename_i s1 hs1
        split at hs
        · cases hs; exact .inr ⟨_, rfl, fun _ => ⟨_, rfl, hs1⟩⟩
        · cases hs; exact .inr ⟨_, rfl, fun _ => ⟨_, rfl, hs1⟩⟩

theorem clearing_run {codecs : ι → Codec} (es : List (Ev ι)) {s s' : Inst ι} (h : Kept codecs s) (hc : s.Clearing)
    (hs : run codecs s es = some (s', [])) : s'.Clearing ∧ Kept codecs s' := by
  induction es generalizing s with
  | nil => simp only [run, Option.some.injEq, Prod.mk.injEq] at hs; obtain ⟨rfl, _⟩ := hs; exact ⟨hc, h⟩
  | cons e es ih =>
    unfold run at hs
    split at hs
    · cases hs
    rename_i s1 r1 hs1
    split at hs
    · cases hs
    rename_i s2 rs2 h2
    simp only [Option.some.injEq, Prod.mk.injEq, List.append_eq_nil_iff] at hs
    obtain ⟨rfl, hr, rfl⟩ := hs
    rcases clearing_step h hc hs1 with ⟨_, hc1⟩ | ⟨x, rfl, _⟩
    · exact ih (kept_step h hs1) hc1 h2
    · simp at hr

end Inst

/-- What a file of zeros opens as. -/
theorem openStore_zeros (c : Codec) (p n : Nat) (h8 : 8 ≤ n) (q : Option Nat) :
    openStore c p (zeros n) 8 q = some ⟨[], WState.mk (zeros n) n p 0 false 8 q []⟩ := by
  have hl : (zeros n).length = n := by simp [zeros]
  have hcfg : configNew p (zeros n) = zeros n := by unfold configNew; rw [if_neg (by omega)]
  unfold openStore
  simp only [hcfg, hl]
  rw [if_neg (by omega)]
  have hr : WState.readItems (WState.mk (zeros n) n p 0 false 8 q []) c = some [] := by
    unfold WState.readItems WState.writeOffset WState.lenOffset
    have : (zeros n).take 8 = zeros 8 := by simp only [zeros, List.take_replicate]; congr 1; omega
    simp only [this, beVal_zeros]
    rw [if_neg (by omega)]
    simp
  rw [hr]
  rfl

theorem openStore_nil_inv {c : Codec} {page u : Nat} {q : Option Nat} {o : Opened}
    (h : openStore c page [] u q = some o) : 8 ≤ page ∧ u = 8 := by
  unfold openStore at h
  simp only [configNew_nil] at h
  split at h
  · cases h
  split at h
  · cases h
  rename_i items hi
  unfold WState.readItems at hi
  split at hi
  · cases hi
  rename_i off hoff
  unfold WState.writeOffset WState.lenOffset at hoff
  split at hoff
  · cases hoff
  rename_i h1
  split at hoff
  · cases hoff
  rename_i h2
  simp only [zeros, List.length_replicate] at h1
  exact ⟨by omega, by simpa using h2⟩

/-- A store opened on no file shows nothing, and neither does its file. -/
theorem openAt_nil_shows {codecs : ι → Codec} {i : ι} {page u : Nat} {q : Option Nat} {s : Inst ι}
    (h : openAt codecs i page [] u q = some s) :
    s.Shows Store.empty ∧ ∀ j p, ∃ t, openAt codecs j p s.disk = some t ∧ t.Shows Store.empty := by
  obtain ⟨o, ho⟩ : ∃ o, openStore (codecs i) page [] u q = some o := by
    cases ho : openStore (codecs i) page [] u q with
    | none => simp [openAt, ho] at h
    | some o => exact ⟨o, rfl⟩
  obtain ⟨h8, rfl⟩ := openStore_nil_inv ho
  have h' := h
  rw [openAt, openStore_nil _ _ h8] at h'
  injection h' with h'
  refine ⟨(shows_open h).2 (by rw [← h']; exact view_nil), ?_⟩
  intro j p
  have hd : s.disk = zeros page := by rw [← h']; rfl
  have ht := openStore_zeros (codecs j) p page h8 none
  have hop : openAt codecs j p s.disk = some ⟨j, [], true, false, .idle, false, Looper.new { ws := WState.mk (zeros page) page p 0 false 8 none [] }⟩ := by
    unfold openAt
    rw [hd, ht]
  exact ⟨_, hop, (shows_open hop).2 view_nil⟩

/-- **C59**, what is true: whatever has failed before - writes lost, the background thread dead, calls returning `Err` - if
`clear_data` is called while gets still work (none says `InstanceClosed`) and returns `Ok`, the store shows nothing, and
the new file holds nothing.  Missing from C59: a `clear_data` after one that failed (`C59_refuted`). -/
theorem C59_partial {codecs : ι → Codec} {i : ι} {page : Nat} {file : Bytes} {u : Nat} {q : Option Nat} {s0 s s1 s' : Inst ι}
    {es es' : List (Ev ι)} {rs : List (Out Unit)} {e : Ev ι} (hopen : openAt codecs i page file u q = some s0)
    (hrun : run codecs s0 es = some (s, rs)) {key : String} {t : Ty} (hget : Inst.get s key t ≠ .err .instanceClosed)
    (hclr : run codecs s (.clear :: es') = some (s1, [])) (hret : step codecs s1 e = some (s', some (.ok ()))) :
    s'.Shows Store.empty ∧ ∀ j p, ∃ t, openAt codecs j p s'.disk = some t ∧ t.Shows Store.empty := by
  have hk := kept_run es (kept_open hopen) hrun
  unfold run at hclr
  split at hclr
  · cases hclr
  rename_i s2 r2 hs2
  split at hclr
  · cases hclr
  rename_i s3 rs3 hr3
  simp only [Option.some.injEq, Prod.mk.injEq, List.append_eq_nil_iff] at hclr
  obtain ⟨rfl, hr2, rfl⟩ := hclr
  have hk2 := kept_step hk hs2
  simp only [step] at hs2
  split at hs2
  · cases hs2
  rename_i hidle
  have hidle : s.phase = .idle := by simpa using hidle
  split at hs2
  · cases hs2; cases hr2
  rename_i hpo
  split at hs2
  · rename_i hval
    exfalso
    apply hget
    unfold Inst.get getAs
    rw [if_neg hpo, if_pos hval]
  · rename_i hval
    have hsd := hk.sender (by simpa using hval) (by rw [hidle]; exact fun h => by cases h)
    cases hs2
    obtain ⟨hc, hk3⟩ := clearing_run es' hk2 (.push rfl hsd) hr3
    rcases clearing_step hk3 hc hret with ⟨h, _⟩ | ⟨x, hx, h⟩
    · cases h
    · injection hx with hx
      obtain ⟨j, _, hop⟩ := h hx.symm
      exact openAt_nil_shows hop

/-- **C59 is false** after a failure: on a disk that is full, `a` is saved, the write of `b` fails while a `clear_data` waits for
the thread, so that `clear_data` returns `Err`; the next `clear_data` returns `Ok` and everything saved before is back. -/
theorem C59_refuted : ∃ s rs, limited64 (fullPut "a" 6 (List.replicate 44 7) ++ [.put "b" 6 [1], .api (), .api (), .clear,
      .api (), .api (), .api (), .io id, .io id, .io id, .io id, .api (), .clear, .api ()]) = some (s, rs) ∧
    rs = [.ok (), .ok (), .err ioErr, .ok ()] ∧ s.phase = .idle ∧
    s.Shows (Store.empty.run [.put "a" ⟨6, List.replicate 44 7⟩]) := by
  have h : passes (limited64 (fullPut "a" 6 (List.replicate 44 7) ++ [.put "b" 6 [1], .api (), .api (), .clear,
      .api (), .api (), .api (), .io id, .io id, .io id, .io id, .api (), .clear, .api ()])) (fun s rs =>
      decide (rs = [.ok (), .ok (), .err ioErr, .ok ()] ∧ s.phase = .idle ∧ s.poisoned = false ∧ s.valid = true ∧
        s.kv = [("a", ⟨"a", 6, List.replicate 44 7⟩)])) = true := by decide +kernel
  obtain ⟨s, rs, h1, h2⟩ := exists_of_passes h
  simp only [decide_eq_true_eq] at h2
  obtain ⟨g1, g2, g3, g4, g5⟩ := h2
  refine ⟨s, rs, h1, g1, g2, (shows_iff g3 g4 ?_).2 ?_⟩
  · unfold limited64 at h1
    split at h1
    · cases h1
    · rename_i s0 hs0; exact live_run _ (live_open hs0) h1
  · rw [g5]
    funext k
    by_cases hk : k = "a"
    · subst hk; simp [view, KvMap.get, Store.run, Store.apply, Buffer.entry]
    · simp [view, KvMap.get, Store.run, Store.apply, Store.empty, hk, Ne.symm hk]

/-- The hypotheses of `C59_partial` are met by a store that holds a value and has more on the way. -/
theorem clearDemo_meets : ∃ s0 s s1 s' rs, openAt plain () 64 [] = some s0 ∧
    run plain s0 (fullPut "a" 6 [1] ++ [.put "b" 6 [2], .api (), .api ()]) = some (s, rs) ∧ Inst.get s "z" .byteArray ≠ .err .instanceClosed ∧
    run plain s (.clear :: [.api (), .api (), .api (), .io id, .io id, .io id, .io id, .io id, .io id, .io id, .io id, .io id, .api ()]) = some (s1, []) ∧
    step plain s1 (.api ()) = some (s', some (.ok ())) := by
  have h : (match openAt plain () 64 [] with
    | none => false
    | some s0 => match run plain s0 (fullPut "a" 6 [1] ++ [.put "b" 6 [2], .api (), .api ()]) with
      | none => false
      | some (s, _) => match run plain s (.clear :: [.api (), .api (), .api (), .io id, .io id, .io id, .io id, .io id, .io id, .io id, .io id, .io id, .api ()]) with
        | none => false
        | some (s1, r1) => match step plain s1 (.api ()) with
          | none => false
          | some (_, r2) => decide (s.valid = true ∧ s.poisoned = false ∧ s.kv.get "z" = none ∧ r1 = [] ∧ r2 = some (.ok ()))) = true := by decide +kernel
  split at h
  · cases h
  rename_i s0 hs0
  split at h
  · cases h
  rename_i s rs hr
  split at h
  · cases h
  rename_i s1 r1 hr1
  split at h
  · cases h
  rename_i s' r2 hr2
  simp only [decide_eq_true_eq] at h
  obtain ⟨g1, g2, g3, rfl, rfl⟩ := h
  refine ⟨s0, s, s1, s', rs, hs0, hr, ?_, hr1, hr2⟩
  unfold Inst.get getAs
  rw [g1, g2]
  simp only [Bool.false_eq_true, if_false, Bool.true_eq_false, g3]
  simp

end Mmkv
