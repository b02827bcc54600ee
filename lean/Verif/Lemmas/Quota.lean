import Verif.Lemmas.Durable
/-! A limited disk behaves like an unlimited one until a write fails. -/

namespace Mmkv

/-- The same writer on an unlimited disk. -/
def WState.noq (s : WState) : WState := { s with quota := none }

theorem writeOffset_noq (s : WState) : s.noq.writeOffset = s.writeOffset := rfl

theorem readItems_noq (s : WState) (c : Codec) : s.noq.readItems c = s.readItems c := rfl

theorem store_noq {s s' : WState} {off : Nat} {bs : Bytes} (h : s.store off bs = .done s') : s.noq.store off bs = .done s'.noq := by
  unfold WState.store at h ⊢
  split at h
  · rename_i hle
    injection h with h
    subst h
    exact if_pos hle
  · cases h

theorem andThen_inv {σ : Type} {r : Run σ} {f : σ → Run σ} {s' : σ} (h : r.andThen f = .done s') :
    ∃ s1, r = .done s1 ∧ f s1 = .done s' := by
  cases r with
  | done s1 => exact ⟨s1, rfl, h⟩
  | panic s1 => cases h

theorem storeLen_noq {s s' : WState} {n : Nat} (h : s.storeLen n = .done s') : s.noq.storeLen n = .done s'.noq := by
  unfold WState.storeLen at h ⊢
  split at h
  · cases h
  · rename_i hu
    rw [if_neg (by exact hu)]
    exact store_noq h

theorem append_noq {s s' : WState} {v : Bytes} (h : s.append v = .done s') : s.noq.append v = .done s'.noq := by
  unfold WState.append at h ⊢
  rw [writeOffset_noq]
  split at h
  · cases h
  · rename_i start hst
    simp only [] at h ⊢
    obtain ⟨s1, h1, h2⟩ := andThen_inv h
    rw [storeLen_noq h1, Run.andThen_done]
    exact store_noq h2

theorem expand_noq {s s' : WState} (h : s.expand = .done s') : s.noq.expand = .done s'.noq := by
  unfold WState.expand at h ⊢
  simp only [] at h
  split at h
  · injection h with h
    subst h
    rfl
  · cases h

theorem trimLoop_noq {c : Codec} {maxLen : Nat} : ∀ (bs : List Buffer) (s s' : WState),
    WState.trimLoop c maxLen bs s = .done s' → WState.trimLoop c maxLen bs s.noq = .done s'.noq := by
  intro bs
  induction bs with
  | nil => intro s s' h; injection h with h; subst h; rfl
  | cons b bs ih =>
    intro s s' h
    unfold WState.trimLoop at h ⊢
    rw [writeOffset_noq, show s.noq.position = s.position from rfl]
    split at h
    · cases h
    rename_i bytes henc
    split at h
    · cases h
    rename_i off hoff
    obtain ⟨s3, h3, hrec⟩ := andThen_inv h
    obtain ⟨s2, h2, hp⟩ := andThen_inv h3
    obtain ⟨s1, h1, ha⟩ := andThen_inv h2
    have e1 : (if off + bytes.length > maxLen then s.noq.expand else .done s.noq) = .done s1.noq := by
      split at h1
      · rename_i hc; rw [if_pos hc]; exact expand_noq h1
      · rename_i hc; rw [if_neg hc]; injection h1 with h1; subst h1; rfl
    rw [e1, Run.andThen_done, append_noq ha, Run.andThen_done]
    injection hp with hp
    subst hp
    exact ih _ _ hrec

theorem write_noq {c : Codec} {order : List Buffer → List Buffer} {b : Buffer} {dup : Bool} {s s' : WState}
    (h : s.write c order b dup = .done s') : s.noq.write c order b dup = .done s'.noq := by
  unfold WState.write at h ⊢
  rw [writeOffset_noq]
  change (match c.enc b s.position with
    | none => Run.panic s.noq
    | some data => _) = _
  split at h
  · cases h
  rename_i data henc
  split at h
  · cases h
  rename_i off hoff
  simp only [henc]
  have e0 : (if dup = true then { s.noq with needTrim := true } else s.noq) =
      WState.noq (if dup = true then { s with needTrim := true } else s) := by split <;> rfl
  rw [e0]
  change (if data.length + off ≤ s.mmLen then _ else _) = _
  change (if data.length + off ≤ s.mmLen then _ else _) = _ at h
  generalize (if dup = true then { s with needTrim := true } else s) = s0 at h ⊢
  split at h
  · rename_i hfit
    rw [if_pos hfit]
    obtain ⟨s1, h1, h2⟩ := andThen_inv h
    rw [append_noq h1, Run.andThen_done]
    injection h2 with h2
    subst h2
    rfl
  · rename_i hfit
    rw [if_neg hfit, show s0.noq.needTrim = s0.needTrim from rfl]
    split at h
    · rename_i hnt
      rw [if_pos hnt, readItems_noq]
      split at h
      · cases h
      · rename_i items hitems
        simp only [] at h ⊢
        obtain ⟨s2, h2, hf⟩ := andThen_inv h
        obtain ⟨s1, h1, ht⟩ := andThen_inv h2
        have er : s0.noq.reset = .done s1.noq := storeLen_noq h1
        rw [er, Run.andThen_done]
        have := trimLoop_noq _ _ _ ht
        rw [show ({ s1.noq with position := 0 } : WState) = WState.noq { s1 with position := 0 } from rfl, show s.noq.mmLen = s.mmLen from rfl, this, Run.andThen_done]
        injection hf with hf
        subst hf
        rfl
    · rename_i hnt
      rw [if_neg hnt]
      obtain ⟨s2, h2, hp⟩ := andThen_inv h
      obtain ⟨s1, h1, ha⟩ := andThen_inv h2
      rw [expand_noq h1, Run.andThen_done, append_noq ha, Run.andThen_done]
      injection hp with hp
      subst hp
      rfl

/-- A write that panics because the file cannot grow for an append leaves the file as it was. -/
theorem write_quota_append {c : Codec} {order : List Buffer → List Buffer} {b : Buffer} {dup : Bool} {s s' : WState}
    (hnt : (s.needTrim || dup) = false) (h : s.write c order b dup = .panic s')
    (hd : ∃ s1, s.noq.write c order b dup = .done s1) : s'.file = s.file ∧ s'.mmLen = s.mmLen := by
  obtain ⟨s1, hd⟩ := hd
  simp only [Bool.or_eq_false_iff] at hnt
  obtain ⟨hnt, rfl⟩ := hnt
  unfold WState.write at h hd
  rw [writeOffset_noq, show s.noq.position = s.position from rfl, show s.noq.mmLen = s.mmLen from rfl] at hd
  split at h
  · injection h with h; subst h; exact ⟨rfl, rfl⟩
  rename_i data henc
  split at h
  · injection h with h; subst h; exact ⟨rfl, rfl⟩
  rename_i off hoff
  simp only [henc, hoff, Bool.false_eq_true, if_false, show s.noq.needTrim = s.needTrim from rfl, hnt] at h hd
  split at h
  · rename_i hfit
    rw [if_pos hfit] at hd
    obtain ⟨s2, h2, _⟩ := andThen_inv hd
    -- the append does not depend on the quota
    exfalso
    have : ∀ s3, s.append data ≠ .panic s3 := by
      intro s3 h3
      unfold WState.append at h2 h3
      rw [writeOffset_noq] at h2
      simp only [hoff] at h2 h3
      obtain ⟨s4, h4, h5⟩ := andThen_inv h2
      unfold WState.storeLen at h4 h3
      rw [show s.noq.usizeBytes = s.usizeBytes from rfl] at h4
      split at h4
      · cases h4
      · rename_i hu
        rw [if_neg hu] at h3
        unfold WState.store at h3 h4 h5
        rw [show s.noq.mmLen = s.mmLen from rfl] at h4
        split at h4
        · rename_i hle
          injection h4 with h4
          subst h4
          rw [if_pos hle, Run.andThen_done] at h3
          split at h5
          · rename_i hle2
            rw [if_pos (by exact hle2)] at h3
            cases h3
          · cases h5
        · cases h4
    cases ha : s.append data with
    | done s3 => rw [ha] at h; cases h
    | panic s3 => exact this s3 ha
  · rename_i hfit
    rw [if_neg hfit] at hd
    obtain ⟨s2, h2, _⟩ := andThen_inv hd
    obtain ⟨s3, h3, h4⟩ := andThen_inv h2
    cases he : s.expand with
    | panic s4 =>
      rw [he] at h
      injection h with h
      subst h
      unfold WState.expand at he
      simp only [] at he
      split at he
      · cases he
      · injection he with he; subst he; exact ⟨rfl, rfl⟩
    | done s4 =>
      exfalso
      have h5 := expand_noq he
      rw [h3] at h5
      injection h5 with h5
      rw [he, Run.andThen_done] at h
      have hap : ∀ s6, s4.append data ≠ .panic s6 := by
        intro s6 h6
        rw [h5] at h4
        unfold WState.append at h4 h6
        rw [writeOffset_noq] at h4
        split at h4
        · cases h4
        rename_i start hst
        simp only [hst] at h4 h6
        obtain ⟨s7, h7, h8⟩ := andThen_inv h4
        unfold WState.storeLen at h7 h6
        rw [show s4.noq.usizeBytes = s4.usizeBytes from rfl] at h7
        split at h7
        · cases h7
        · rename_i hu
          rw [if_neg hu] at h6
          unfold WState.store at h6 h7 h8
          rw [show s4.noq.mmLen = s4.mmLen from rfl] at h7
          split at h7
          · rename_i hle
            injection h7 with h7
            subst h7
            rw [if_pos hle, Run.andThen_done] at h6
            split at h8
            · rename_i hle2
              rw [if_pos (by exact hle2)] at h6
              cases h6
            · cases h8
          · cases h7
      cases ha : s4.append data with
      | done s5 => rw [ha] at h; cases h
      | panic s5 => exact hap s5 ha


/-! ### One store -/

open Spec
variable {ι : Type}

namespace Inst

/-- The same store on an unlimited disk. -/
def noq (s : Inst ι) : Inst ι := { s with lp := { s.lp with cb := { s.lp.cb with ws := s.lp.cb.ws.noq } } }

/-- No background write has failed so far (in the current instance). -/
def Alive (s : Inst ι) : Prop := s.lp.io ≠ .unwinding ∧ s.lp.io ≠ .dead

theorem disk_noq (s : Inst ι) : s.noq.disk = s.disk := rfl

theorem openStore_noq {c : Codec} {page u : Nat} {file : Bytes} {q : Option Nat} {o : Opened} (h : openStore c page file u q = some o) :
    openStore c page file u none = some { o with ws := o.ws.noq } := by
  unfold openStore at h ⊢
  simp only [] at h ⊢
  split at h
  · cases h
  · rename_i hne
    rw [if_neg hne]
    generalize hs : (WState.mk (configNew page file) (configNew page file).length page 0 false u q []) = s at h
    have e : WState.mk (configNew page file) (configNew page file).length page 0 false u none [] = s.noq := by rw [← hs]; rfl
    rw [e, readItems_noq]
    split at h
    · cases h
    · injection h with h
      subst h
      rfl

theorem openStore_noq_none {c : Codec} {page u : Nat} {file : Bytes} {q : Option Nat} (h : openStore c page file u q = none) :
    openStore c page file u none = none := by
  unfold openStore at h ⊢
  simp only [] at h ⊢
  split at h
  · rename_i hne; rw [if_pos hne]
  · rename_i hne
    rw [if_neg hne]
    generalize hs : (WState.mk (configNew page file) (configNew page file).length page 0 false u q []) = s at h
    have e : WState.mk (configNew page file) (configNew page file).length page 0 false u none [] = s.noq := by rw [← hs]; rfl
    rw [e, readItems_noq]
    split at h
    · rfl
    · cases h

theorem openAt_noq {codecs : ι → Codec} {i : ι} {page u : Nat} {file : Bytes} {q : Option Nat} {s : Inst ι}
    (h : openAt codecs i page file u q = some s) : openAt codecs i page file u none = some s.noq := by
  unfold openAt at h ⊢
  split at h
  · cases h
  · rename_i o ho
    injection h with h
    subst h
    rw [openStore_noq ho]
    rfl

theorem openAt_noq_none {codecs : ι → Codec} {i : ι} {page u : Nat} {file : Bytes} {q : Option Nat}
    (h : openAt codecs i page file u q = none) : openAt codecs i page file u none = none := by
  unfold openAt at h ⊢
  split at h
  · rename_i ho; rw [openStore_noq_none ho]
  · cases h

/-- While no background write fails, a limited disk makes no difference. -/
theorem step_noq {codecs : ι → Codec} {s s' : Inst ι} {e : Ev ι} {r : Option (Out Unit)} (h : step codecs s e = some (s', r))
    (hal : s'.lp.io ≠ .unwinding) : step codecs s.noq e = some (s'.noq, r) := by
  cases e with
  | put k t bs =>
    simp only [step] at h ⊢
    split at h
    · cases h
    rename_i hg
    rw [if_neg (by exact hg)]
    split at h
    · rename_i hp; rw [if_pos (by exact hp)]; cases h; rfl
    rename_i hp
    rw [if_neg (by exact hp)]
    split at h
    · rename_i hv; rw [if_pos (by exact hv)]; cases h; rfl
    rename_i hv
    rw [if_neg (by exact hv)]
    cases h; rfl
  | delete k =>
    simp only [step] at h ⊢
    split at h
    · cases h
    rename_i hg
    rw [if_neg (by exact hg)]
    split at h
    · rename_i hp; rw [if_pos (by exact hp)]; cases h; rfl
    rename_i hp
    rw [if_neg (by exact hp)]
    split at h
    · rename_i hv; rw [if_pos (by exact hv)]; cases h; rfl
    rename_i hv
    rw [if_neg (by exact hv)]
    split at h
    · rename_i hn; rw [if_pos (by exact hn)]; cases h; rfl
    rename_i hn
    rw [if_neg (by exact hn)]
    cases h; rfl
  | clear =>
    simp only [step] at h ⊢
    split at h
    · cases h
    rename_i hg
    rw [if_neg (by exact hg)]
    split at h
    · rename_i hp; rw [if_pos (by exact hp)]; cases h; rfl
    rename_i hp
    rw [if_neg (by exact hp)]
    split at h
    · rename_i hv; rw [if_pos (by exact hv)]; cases h; rfl
    rename_i hv
    rw [if_neg (by exact hv)]
    cases h; rfl
  | drop =>
    simp only [step] at h ⊢
    split at h
    · cases h
    rename_i hg
    rw [if_neg (by exact hg)]
    cases h; rfl
  | io o =>
    simp only [step] at h ⊢
    split at h
    · cases h
    rename_i lp hlp
    cases h
    have : Looper.ioStep (fun o j cb => execJob (codecs s.noq.idx) o j cb) o s.noq.lp =
        some { lp with cb := { lp.cb with ws := lp.cb.ws.noq } } := by
      obtain ⟨idx, kv, valid, poisoned, phase, joined, ⟨queue, chan, sender, owed, buf, io, cb, pushed, late, ran⟩⟩ := s
      unfold Looper.ioStep at hlp ⊢
      simp only [noq] at hlp ⊢
      cases io with
      | recv =>
        cases chan with
        | nil =>
          cases sender with
          | true => cases hlp
          | false => cases hlp; rfl
        | cons x rest => cases x <;> (cases hlp; rfl)
      | swap => cases hlp; rfl
      | run =>
        cases buf with
        | nil => cases hlp; rfl
        | cons j rest =>
          cases j with
          | remove => cases hlp; rfl
          | write b dup =>
            simp only [execJob] at hlp ⊢
            cases hw : cb.ws.write (codecs idx) o b dup with
            | panic ws =>
              rw [hw] at hlp
              cases hlp
              exact absurd rfl hal
            | done ws =>
              rw [hw] at hlp
              cases hlp
              rw [write_noq hw]
      | unwinding => cases hlp; rfl
      | exited => cases hlp
      | dead => cases hlp
    rw [this]
    rfl
  | api i =>
    simp only [step] at h ⊢
    rw [show s.noq.phase = s.phase from rfl]
    cases hp : s.phase with
    | idle => simp [hp] at h
    | closed => simp [hp] at h
    | push j =>
      simp only [hp] at h ⊢
      cases h
      unfold Looper.push
      rw [show s.noq.lp.sender = s.lp.sender from rfl]
      split <;> rfl
    | clrPush =>
      simp only [hp] at h ⊢
      cases h
      unfold Looper.push
      rw [show s.noq.lp.sender = s.lp.sender from rfl]
      split <;> rfl
    | send =>
      simp only [hp] at h ⊢
      cases h
      unfold Looper.send
      rw [show s.noq.lp.sender = s.lp.sender from rfl, show s.noq.lp.io = s.lp.io from rfl]
      split
      · split <;> rfl
      · rfl
    | clrSend =>
      simp only [hp] at h ⊢
      unfold Looper.send at h ⊢
      rw [show s.noq.lp.sender = s.lp.sender from rfl, show s.noq.lp.io = s.lp.io from rfl]
      split
      · rename_i hsd
        rw [if_pos hsd] at h
        split
        · rename_i hd; rw [if_pos hd] at h; cases h; rfl
        · rename_i hd; rw [if_neg hd] at h; cases h; rfl
      · rename_i hsd; rw [if_neg hsd] at h; cases h; rfl
    | clrQuit =>
      simp only [hp] at h ⊢
      unfold Looper.quitSend at h ⊢
      rw [show s.noq.lp.sender = s.lp.sender from rfl, show s.noq.lp.io = s.lp.io from rfl]
      split
      · rename_i hsd
        rw [if_pos hsd] at h
        split
        · rename_i hd; rw [if_pos hd] at h; cases h; rfl
        · rename_i hd; rw [if_neg hd] at h; cases h; rfl
      · rename_i hsd; rw [if_neg hsd] at h; cases h; rfl
    | clrJoin =>
      simp only [hp] at h ⊢
      rw [show s.noq.lp.io = s.lp.io from rfl]
      split at h
      · rename_i hx; rw [if_pos hx]; cases h; rfl
      · rename_i hx
        rw [if_neg hx]
        split at h
        · rename_i hx; rw [if_pos hx]; cases h; rfl
        · cases h
    | clrOpen =>
      simp only [hp] at h ⊢
      rw [show s.noq.lp.cb.removed = s.lp.cb.removed from rfl, show s.noq.idx = s.idx from rfl,
        show s.noq.lp.cb.ws.page = s.lp.cb.ws.page from rfl, disk_noq,
        show s.noq.lp.cb.ws.usizeBytes = s.lp.cb.ws.usizeBytes from rfl, show s.noq.lp.cb.ws.quota = none from rfl,
        show s.noq.joined = s.joined from rfl, show s.noq.lp.io = s.lp.io from rfl]
      split at h
      · rename_i ho
        rw [openAt_noq_none ho]
        cases h; rfl
      · rename_i s1 ho
        rw [openAt_noq ho]
        simp only []
        split at h
        · rename_i hj; rw [if_pos hj]; cases h; rfl
        rename_i hj
        rw [if_neg hj]
        split at h
        · rename_i hj; rw [if_pos hj]; cases h; rfl
        rename_i hj
        rw [if_neg hj]
        split at h
        · rename_i hj; rw [if_pos hj]; cases h; rfl
        · cases h

end Inst
end Mmkv
