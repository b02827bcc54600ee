import Verif.Model.Copy
import Verif.Lemmas.Crash
import Verif.Lemmas.Remains
/-! What the background thread does to the bytes of its file, as seen by someone who reads it meanwhile. -/

namespace Mmkv
open Spec
variable {ι : Type} {c : Codec}

theorem fileAt_zero (f : Bytes) (es : List Eff) : fileAt f es 0 = f := rfl

theorem fileAt_nil (f : Bytes) (n : Nat) : fileAt f [] n = f := by simp [fileAt]

theorem fileAt_cons (f : Bytes) (e : Eff) (es : List Eff) (n : Nat) : fileAt f (e :: es) (n + 1) = fileAt (e.apply f) es n := rfl

theorem fileAt_append (f : Bytes) (a b : List Eff) (n : Nat) : fileAt f (a ++ b) (a.length + n) = fileAt (a.foldl Eff.apply f) b n := by
  unfold fileAt
  rw [List.take_append, List.take_of_length_le (by omega), List.foldl_append, Nat.add_sub_cancel_left]

theorem splice_before {f bs : Bytes} {off x : Nat} (ho : off ≤ f.length) (hx : x < off) : (splice f off bs)[x]? = f[x]? := by
  unfold splice
  rw [List.append_assoc, List.getElem?_append_left (by simp; omega), List.getElem?_take_of_lt hx]

theorem splice_after {f bs : Bytes} {off x : Nat} (ho : off + bs.length ≤ f.length) (hx : off + bs.length ≤ x) : (splice f off bs)[x]? = f[x]? := by
  unfold splice
  rw [List.getElem?_append_right (by simp; omega), List.getElem?_drop]
  congr 1
  simp
  omega

/-- Changes the background thread can make, one after the other, to a file: growing it, storing a header, and appending at the end the header names. -/
inductive Writes : Bytes → List Eff → Prop
  | nil (f : Bytes) : Writes f []
  | grow (f : Bytes) (n : Nat) (es : List Eff) (hn : f.length ≤ n) (h : Writes (Eff.apply f (.setLen n)) es) : Writes f (.setLen n :: es)
  | len (f : Bytes) (n : Nat) (es : List Eff) (h8 : 8 ≤ f.length) (h : Writes (splice f 0 (beBytes 8 n)) es) : Writes f (.store 0 (beBytes 8 n) :: es)
  | append (f v : Bytes) (n : Nat) (es : List Eff) (hv : beVal (f.take 8) + 8 + v.length ≤ f.length)
      (h : Writes (splice (splice f 0 (beBytes 8 n)) (beVal (f.take 8) + 8) v) es) :
      Writes f (.store 0 (beBytes 8 n) :: .store (beVal (f.take 8) + 8) v :: es)

theorem Writes.comp {f : Bytes} {a b : List Eff} (h : Writes f a) (h' : Writes (a.foldl Eff.apply f) b) : Writes f (a ++ b) := by
  induction h with
  | nil => exact h'
  | grow f n es hn _ ih => exact .grow _ _ _ hn (ih h')
  | len f n es h8 _ ih => exact .len _ _ _ h8 (ih h')
  | append f v n es hv _ ih => exact .append _ _ _ _ hv (ih h')

/-- What lies below the smallest header is not touched. -/
theorem Writes.keeps {f : Bytes} {es : List Eff} (h : Writes f es) : ∀ {h0 : Nat}, 8 + h0 ≤ f.length →
    (∀ n ≤ es.length, h0 ≤ beVal ((fileAt f es n).take 8)) →
    ∀ n, f.length ≤ (fileAt f es n).length ∧ ∀ x, 8 ≤ x → x < 8 + h0 → (fileAt f es n)[x]? = f[x]? := by
  induction h with
  | nil f => intro h0 _ _ n; rw [fileAt_nil]; exact ⟨Nat.le_refl _, fun _ _ _ => rfl⟩
  | grow f m es hm _ ih =>
    intro h0 h8 hh n
    cases n with
    | zero => exact ⟨Nat.le_refl _, fun _ _ _ => rfl⟩
    | succ n =>
      have hap : Eff.apply f (.setLen m) = f ++ zeros (m - f.length) := by
        simp only [Eff.apply]; rw [List.take_of_length_le hm]
      have hl : (Eff.apply f (.setLen m)).length = m := by rw [hap]; simp [zeros]; omega
      obtain ⟨i1, i2⟩ := ih (h0 := h0) (by omega) (fun k hk => hh (k + 1) (by simpa using hk)) n
      rw [fileAt_cons]
      refine ⟨by omega, fun x h1 h2 => ?_⟩
      rw [i2 x h1 h2, hap, List.getElem?_append_left (by omega)]
  | len f m es hf _ ih =>
    intro h0 h8 hh n
    cases n with
    | zero => exact ⟨Nat.le_refl _, fun _ _ _ => rfl⟩
    | succ n =>
      have hl : (splice f 0 (beBytes 8 m)).length = f.length := splice_length _ _ _ (by simp; omega)
      obtain ⟨i1, i2⟩ := ih (h0 := h0) (by omega) (fun k hk => hh (k + 1) (by simpa using hk)) n
      rw [fileAt_cons]
      refine ⟨by simp only [Eff.apply]; omega, fun x h1 h2 => ?_⟩
      rw [show Eff.apply f (.store 0 (beBytes 8 m)) = splice f 0 (beBytes 8 m) from rfl, i2 x h1 h2]
      exact splice_after (by simp; omega) (by simp; omega)
  | append f v m es hv _ ih =>
    intro h0 h8 hh n
    have hl1 : (splice f 0 (beBytes 8 m)).length = f.length := splice_length _ _ _ (by simp; omega)
    have hl2 : (splice (splice f 0 (beBytes 8 m)) (beVal (f.take 8) + 8) v).length = f.length := by
      rw [splice_length _ _ _ (by omega), hl1]
    have hhd : h0 ≤ beVal (f.take 8) := hh 0 (by simp)
    have hx1 : ∀ x, 8 ≤ x → x < 8 + h0 → (splice f 0 (beBytes 8 m))[x]? = f[x]? :=
      fun x h1 h2 => splice_after (by simp; omega) (by simp; omega)
    match n with
    | 0 => exact ⟨Nat.le_refl _, fun _ _ _ => rfl⟩
    | 1 =>
      rw [fileAt_cons, fileAt_zero]
      exact ⟨by simp only [Eff.apply]; omega, hx1⟩
    | n + 2 =>
      obtain ⟨i1, i2⟩ := ih (h0 := h0) (by omega) (fun k hk => hh (k + 2) (by simpa using hk)) n
      rw [fileAt_cons, fileAt_cons]
      refine ⟨by simp only [Eff.apply]; omega, fun x h1 h2 => ?_⟩
      simp only [Eff.apply]
      rw [i2 x h1 h2, splice_before (by omega) (by omega), hx1 x h1 h2]

/-- `s'` is `s` after changes of that kind. -/
def Traced (s s' : WState) : Prop :=
  s.mmLen = s.file.length → ∃ es, s'.log = s.log ++ es ∧ es.foldl Eff.apply s.file = s'.file ∧ s'.mmLen = s'.file.length ∧ Writes s.file es

theorem Traced.rfl' (s : WState) : Traced s s := fun h => ⟨[], by simp, rfl, h, .nil _⟩

theorem Traced.trans {a b d : WState} (h : Traced a b) (h' : Traced b d) : Traced a d := by
  intro hm
  obtain ⟨e1, h1, h2, h3, h4⟩ := h hm
  obtain ⟨e2, h5, h6, h7, h8⟩ := h' h3
  exact ⟨e1 ++ e2, by rw [h5, h1, List.append_assoc], by rw [List.foldl_append, h2, h6], h7, h4.comp (by rw [h2]; exact h8)⟩

theorem traced_same (s s' : WState) (h1 : s'.log = s.log) (h2 : s'.file = s.file) (h3 : s'.mmLen = s.mmLen) : Traced s s' :=
  fun h => ⟨[], by simp [h1], h2.symm, by rw [h2, h3, h], .nil _⟩

theorem traced_andThen {s : WState} {r : Run WState} {f : WState → Run WState} (hr : Traced s r.state)
    (hf : ∀ s1, Traced s1 (f s1).state) : Traced s (r.andThen f).state := by
  cases r with
  | panic s1 => exact hr
  | done s1 => exact hr.trans (hf s1)

theorem traced_storeLen (s : WState) (n : Nat) : Traced s (s.storeLen n).state := by
  unfold WState.storeLen
  split
  · exact .rfl' s
  unfold WState.store
  split
  · rename_i h
    intro hm
    have hl : (splice s.file 0 (beBytes 8 n)).length = s.file.length := splice_length _ _ _ (by omega)
    refine ⟨[.store 0 (beBytes 8 n)], rfl, rfl, ?_, .len _ _ _ (by simp at h; omega) (.nil _)⟩
    simp only [Run.state_done]; rw [hl]; exact hm
  · exact .rfl' s

theorem traced_expand (s : WState) : Traced s s.expand.state := by
  unfold WState.expand
  simp only []
  split
  · intro _
    refine ⟨[.setLen (s.file.length + s.page)], rfl, ?_, by simp [zeros], .grow _ _ _ (by omega) (.nil _)⟩
    simp only [List.foldl_cons, List.foldl_nil, Eff.apply, Run.state_done]
    rw [List.take_of_length_le (by omega), Nat.add_sub_cancel_left]
  · exact .rfl' s

theorem traced_append (s : WState) (v : Bytes) : Traced s (s.append v).state := by
  unfold WState.append
  split
  · exact .rfl' s
  rename_i start hoff
  simp only []
  have hst : start = beVal (s.file.take 8) + 8 := by
    unfold WState.writeOffset WState.lenOffset at hoff
    simp only [] at hoff
    split at hoff
    · cases hoff
    split at hoff
    · cases hoff
    split at hoff
    · injection hoff with hoff; exact hoff.symm
    · cases hoff
  intro hm
  unfold WState.storeLen
  split
  · exact Traced.rfl' s hm
  unfold WState.store
  split
  · rename_i h
    simp only [Run.andThen_done]
    have h8 : 8 ≤ s.file.length := by simp at h; omega
    have hl : (splice s.file 0 (beBytes 8 (v.length + (start - WState.lenOffset)))).length = s.file.length := splice_length _ _ _ (by simp; omega)
    split
    · rename_i h2
      refine ⟨[.store 0 (beBytes 8 (v.length + (start - WState.lenOffset))), .store start v], by simp, rfl, ?_, ?_⟩
      · simp only [Run.state_done]
        rw [splice_length _ _ _ (by omega), hl]; exact hm
      · subst hst
        exact .append _ _ _ _ (by omega) (.nil _)
    · exact ⟨[.store 0 (beBytes 8 (v.length + (start - WState.lenOffset)))], rfl, rfl, by simp only [Run.state_panic]; rw [hl]; exact hm,
        .len _ _ _ h8 (.nil _)⟩
  · exact Traced.rfl' s hm

theorem traced_trimLoop (maxLen : Nat) : ∀ (bs : List Buffer) (s : WState), Traced s (WState.trimLoop c maxLen bs s).state
  | [], s => .rfl' s
  | b :: rest, s => by
    unfold WState.trimLoop
    split
    · exact .rfl' s
    split
    · exact .rfl' s
    refine traced_andThen (traced_andThen (traced_andThen ?_ fun s1 => traced_append s1 _) fun s1 => traced_same _ _ rfl rfl rfl)
      fun s1 => traced_trimLoop maxLen rest s1
    split
    · exact traced_expand s
    · exact .rfl' s

theorem traced_write (order : List Buffer → List Buffer) (b : Buffer) (dup : Bool) (s : WState) :
    Traced s (s.write c order b dup).state := by
  unfold WState.write
  split
  · exact .rfl' s
  split
  · exact .rfl' s
  simp only []
  generalize hs0 : (if dup = true then { s with needTrim := true } else s) = s0
  have h0 : Traced s s0 := by
    rw [← hs0]; split
    · exact traced_same _ _ rfl rfl rfl
    · exact .rfl' s
  split
  · exact h0.trans (traced_andThen (traced_append s0 _) fun s1 => traced_same _ _ rfl rfl rfl)
  split
  · split
    · exact h0
    · refine h0.trans (traced_andThen (traced_andThen (traced_storeLen s0 0) fun s1 => ?_) fun s1 => traced_same _ _ rfl rfl rfl)
      exact (traced_same s1 { s1 with position := 0 } rfl rfl rfl).trans (traced_trimLoop _ _ _)
  · exact h0.trans (traced_andThen (traced_andThen (traced_expand s0) fun s1 => traced_append s1 _) fun s1 => traced_same _ _ rfl rfl rfl)

namespace Inst

/-- No `clear_data` is under way or waiting. -/
structure Uncleared (s : Inst ι) : Prop where
  clr : s.phase.clearing = false
  rem : s.lp.cb.removed = false
  infl : ∀ j ∈ s.phase.inflight, j.isWrite = true
  queue : ∀ j ∈ s.lp.queue, j.isWrite = true
  buf : ∀ j ∈ s.lp.buf, j.isWrite = true

theorem uncleared_open {codecs : ι → Codec} {i : ι} {page : Nat} {file : Bytes} {u : Nat} {q : Option Nat} {s : Inst ι}
    (h : openAt codecs i page file u q = some s) : Uncleared s ∧ s.lp.cb.ws.log = [] ∧ s.lp.cb.ws.mmLen = s.lp.cb.ws.file.length := by
  unfold openAt openStore at h
  simp only [] at h
  split at h
  · cases h
  rename_i o ho
  split at ho
  · cases ho
  split at ho
  · cases ho
  injection ho with ho
  injection h with h
  subst h; subst ho
  exact ⟨⟨rfl, rfl, by simp [Phase.inflight], by simp [Looper.new], by simp [Looper.new]⟩, rfl, rfl⟩

theorem uncleared_step {codecs : ι → Codec} {s s' : Inst ι} {e : Ev ι} {r : Option (Out Unit)} (h : Uncleared s) (hnc : e ≠ .clear)
    (hs : step codecs s e = some (s', r)) : Uncleared s' ∧ Traced s.lp.cb.ws s'.lp.cb.ws := by
  have hid : ∀ {x : Inst ι}, x.phase.clearing = false → (∀ j ∈ x.phase.inflight, j.isWrite = true) → x.lp.cb = s.lp.cb → x.lp.queue = s.lp.queue →
      x.lp.buf = s.lp.buf → Uncleared x ∧ Traced s.lp.cb.ws x.lp.cb.ws := by
    intro x h1 h2 h3 h4 h5
    exact ⟨⟨h1, by rw [h3]; exact h.rem, h2, by rw [h4]; exact h.queue, by rw [h5]; exact h.buf⟩, by rw [h3]; exact .rfl' _⟩
  have hsame : ∀ {x : Inst ι}, s = x → Uncleared x ∧ Traced s.lp.cb.ws x.lp.cb.ws := by
    rintro x rfl; exact ⟨h, .rfl' _⟩
  cases e with
  | put k t bs =>
    simp only [step] at hs
    split at hs
    · cases hs
    split at hs
    · simp only [Option.some.injEq, Prod.mk.injEq] at hs; exact hsame hs.1
    split at hs
    · simp only [Option.some.injEq, Prod.mk.injEq] at hs; exact hsame hs.1
    simp only [Option.some.injEq, Prod.mk.injEq] at hs
    obtain ⟨rfl, rfl⟩ := hs
    exact hid rfl (by simp [Phase.inflight, Job.isWrite]) rfl rfl rfl
  | delete k =>
    simp only [step] at hs
    split at hs
    · cases hs
    split at hs
    · simp only [Option.some.injEq, Prod.mk.injEq] at hs; exact hsame hs.1
    split at hs
    · simp only [Option.some.injEq, Prod.mk.injEq] at hs; exact hsame hs.1
    split at hs
    · simp only [Option.some.injEq, Prod.mk.injEq] at hs; exact hsame hs.1
    simp only [Option.some.injEq, Prod.mk.injEq] at hs
    obtain ⟨rfl, rfl⟩ := hs
    exact hid rfl (by simp [Phase.inflight, Job.isWrite]) rfl rfl rfl
  | clear => exact absurd rfl hnc
  | drop =>
    simp only [step] at hs
    split at hs
    · cases hs
    simp only [Option.some.injEq, Prod.mk.injEq] at hs
    obtain ⟨rfl, rfl⟩ := hs
    exact hid rfl (by simp [Phase.inflight]) rfl rfl rfl
  | api i =>
    simp only [step] at hs
    have hclr := h.clr
    cases hp : s.phase with
    | idle => simp [hp] at hs
    | closed => simp [hp] at hs
    | push j =>
      simp only [hp, Option.some.injEq, Prod.mk.injEq] at hs
      obtain ⟨rfl, rfl⟩ := hs
      have hj : j.isWrite = true := h.infl j (by simp [hp, Phase.inflight])
      unfold Looper.push
      split
      · refine ⟨⟨rfl, h.rem, by simp [Phase.inflight], ?_, h.buf⟩, .rfl' _⟩
        intro j' hj'
        rcases List.mem_append.1 hj' with h1 | h1
        · exact h.queue j' h1
        · simp at h1; subst h1; exact hj
      · refine ⟨⟨rfl, h.rem, by simp [Phase.inflight], ?_, h.buf⟩, .rfl' _⟩
        intro j' hj'
        rcases List.mem_append.1 hj' with h1 | h1
        · exact h.queue j' h1
        · simp at h1; subst h1; exact hj
    | send =>
      simp only [hp, Option.some.injEq, Prod.mk.injEq] at hs
      obtain ⟨rfl, rfl⟩ := hs
      have : (Looper.send s.lp).1.cb = s.lp.cb ∧ (Looper.send s.lp).1.queue = s.lp.queue ∧ (Looper.send s.lp).1.buf = s.lp.buf := by
        unfold Looper.send
        split
        · split <;> exact ⟨rfl, rfl, rfl⟩
        · exact ⟨rfl, rfl, rfl⟩
      exact hid rfl (by simp [Phase.inflight]) this.1 this.2.1 this.2.2
    | clrPush => simp [hp, Phase.clearing] at hclr
    | clrSend => simp [hp, Phase.clearing] at hclr
    | clrQuit => simp [hp, Phase.clearing] at hclr
    | clrJoin => simp [hp, Phase.clearing] at hclr
    | clrOpen => simp [hp, Phase.clearing] at hclr
  | io o =>
    simp only [step] at hs
    split at hs
    · cases hs
    rename_i lp hlp
    simp only [Option.some.injEq, Prod.mk.injEq] at hs
    obtain ⟨rfl, rfl⟩ := hs
    unfold Looper.ioStep at hlp
    cases hio : s.lp.io with
    | recv =>
      simp only [hio] at hlp
      split at hlp
      · injection hlp with hlp; subst hlp; exact hid h.clr h.infl rfl rfl rfl
      · injection hlp with hlp; subst hlp; exact hid h.clr h.infl rfl rfl rfl
      · split at hlp
        · cases hlp
        · injection hlp with hlp; subst hlp; exact hid h.clr h.infl rfl rfl rfl
    | swap =>
      simp only [hio] at hlp
      injection hlp with hlp; subst hlp
      exact ⟨⟨h.clr, h.rem, h.infl, h.buf, h.queue⟩, .rfl' _⟩
    | unwinding => simp only [hio] at hlp; injection hlp with hlp; subst hlp; exact hid h.clr h.infl rfl rfl rfl
    | exited => simp [hio] at hlp
    | dead => simp [hio] at hlp
    | run =>
      simp only [hio] at hlp
      cases hbuf : s.lp.buf with
      | nil => simp only [hbuf] at hlp; injection hlp with hlp; subst hlp; exact ⟨⟨h.clr, h.rem, h.infl, h.queue, by simp⟩, .rfl' _⟩
      | cons j rest =>
        simp only [hbuf] at hlp
        have hb := h.buf
        rw [hbuf] at hb
        cases j with
        | remove => simpa [Job.isWrite] using hb _ List.mem_cons_self
        | write b dup =>
          have ht := traced_write (c := codecs s.idx) o b dup s.lp.cb.ws
          simp only [execJob] at hlp
          cases hw : s.lp.cb.ws.write (codecs s.idx) o b dup with
          | done ws =>
            rw [hw] at ht
            simp only [hw] at hlp
            injection hlp with hlp; subst hlp
            exact ⟨⟨h.clr, h.rem, h.infl, h.queue, fun j hj => hb j (List.mem_cons_of_mem _ hj)⟩, ht⟩
          | panic ws =>
            rw [hw] at ht
            simp only [hw] at hlp
            injection hlp with hlp; subst hlp
            exact ⟨⟨h.clr, h.rem, h.infl, h.queue, fun j hj => hb j (List.mem_cons_of_mem _ hj)⟩, ht⟩

theorem uncleared_run {codecs : ι → Codec} (es : List (Ev ι)) : ∀ {s s' : Inst ι} {rs : List (Out Unit)}, Uncleared s → (∀ e ∈ es, e ≠ .clear) →
    run codecs s es = some (s', rs) → Uncleared s' ∧ Traced s.lp.cb.ws s'.lp.cb.ws := by
  induction es with
  | nil =>
    intro s s' rs h _ hs
    simp only [run, Option.some.injEq, Prod.mk.injEq] at hs
    obtain ⟨rfl, rfl⟩ := hs
    exact ⟨h, .rfl' _⟩
  | cons e es ih =>
    intro s s' rs h hnc hs
    unfold run at hs
    split at hs
    · cases hs
    rename_i s1 r1 hs1
    split at hs
    · cases hs
    rename_i s2 rs2 hs2
    simp only [Option.some.injEq, Prod.mk.injEq] at hs
    obtain ⟨rfl, rfl⟩ := hs
    obtain ⟨h1, t1⟩ := uncleared_step h (hnc e List.mem_cons_self) hs1
    obtain ⟨h2, t2⟩ := ih h1 (fun x hx => hnc x (List.mem_cons_of_mem _ hx)) hs2
    exact ⟨h2, t1.trans t2⟩

/-- The length header only grows. -/
def _root_.Mmkv.Rising (f : Bytes) (es : List Eff) : Prop :=
  ∀ n m, n ≤ m → beVal ((fileAt f es n).take 8) ≤ beVal ((fileAt f es m).take 8)

theorem _root_.Mmkv.Rising.comp {f : Bytes} {a b : List Eff} (h : Rising f a) (h' : Rising (a.foldl Eff.apply f) b) : Rising f (a ++ b) := by
  have hlow : ∀ n, n ≤ a.length → fileAt f (a ++ b) n = fileAt f a n := by
    intro n hn; unfold fileAt; rw [List.take_append_of_le_length hn]
  have hall : fileAt f a a.length = a.foldl Eff.apply f := by unfold fileAt; rw [List.take_length]
  intro n m hnm
  by_cases hm : m ≤ a.length
  · rw [hlow n (by omega), hlow m hm]; exact h n m hnm
  · obtain ⟨d, rfl⟩ : ∃ d, m = a.length + d := ⟨m - a.length, by omega⟩
    rw [fileAt_append]
    by_cases hn : n ≤ a.length
    · rw [hlow n hn]
      refine Nat.le_trans (h n a.length hn) ?_
      rw [hall]
      exact h' 0 d (Nat.zero_le _)
    · obtain ⟨d', rfl⟩ : ∃ d, n = a.length + d := ⟨n - a.length, by omega⟩
      rw [fileAt_append]
      exact h' d' d (by omega)

theorem rising_fit {f content r : Bytes} (h : Holds f content) (hfit : content.length + 8 + r.length ≤ f.length) (h64 : r.length + content.length < 2 ^ 64) :
    Rising f [.store 0 (beBytes 8 (r.length + content.length)), .store (content.length + 8) r] := by
  obtain ⟨hb, tail, hf⟩ := h
  have h8 : 8 ≤ f.length := by omega
  have hl : (splice f 0 (beBytes 8 (r.length + content.length))).length = f.length := splice_length _ _ _ (by simp; omega)
  have t1 : (splice f 0 (beBytes 8 (r.length + content.length))).take 8 = beBytes 8 (r.length + content.length) := by
    unfold splice; simp
  have t2 : (splice (splice f 0 (beBytes 8 (r.length + content.length))) (content.length + 8) r).take 8 = beBytes 8 (r.length + content.length) := by
    refine Eq.trans ?_ t1
    apply List.ext_getElem?
    intro x
    by_cases hx : x < 8
    · rw [List.getElem?_take_of_lt hx, List.getElem?_take_of_lt hx, splice_before (by omega) (by omega)]
    · rw [List.getElem?_take_eq_none (by omega), List.getElem?_take_eq_none (by omega)]
  have v0 : beVal (f.take 8) = content.length := Holds.header ⟨hb, tail, hf⟩
  have v1 : beVal (beBytes 8 (r.length + content.length)) = r.length + content.length := beVal_beBytes _ _ (by omega)
  have key : ∀ n, beVal ((fileAt f [.store 0 (beBytes 8 (r.length + content.length)), .store (content.length + 8) r] n).take 8) =
      if n = 0 then content.length else r.length + content.length := by
    intro n
    match n with
    | 0 => rw [fileAt_zero, v0, if_pos rfl]
    | 1 => rw [fileAt_cons, fileAt_zero]; simp only [Eff.apply]; rw [t1, v1, if_neg (by omega)]
    | n + 2 => rw [fileAt_cons, fileAt_cons, fileAt_nil]; simp only [Eff.apply]; rw [t2, v1, if_neg (by omega)]
  intro n m hnm
  rw [key, key]
  split <;> split <;> omega

theorem rising_step {E : Env ι} {i0 : ι} {S0 : Store} {K F C0 R T : Nat} {items0 : List (Option Buffer)} {cs : List Mutation} {s s' : Inst ι} {e : Ev ι}
    {r : Option (Out Unit)} (h : DInv E S0 K cs s)
    (hc : RInv E i0 F C0 items0 R cs s) (hT : 8 + C0 + T ≤ F) (hR : R ≤ T) (hnc : e ≠ .clear)
    (hroom : E.Room (K + cs.length)) (hs : step E.codecs s e = some (s', r)) (hu : Uncleared s) :
    ∃ es, s'.lp.cb.ws.log = s.lp.cb.ws.log ++ es ∧ Rising s.lp.cb.ws.file es := by
  have hsame : ∀ {x : Inst ι}, x.lp.cb = s.lp.cb → ∃ es, x.lp.cb.ws.log = s.lp.cb.ws.log ++ es ∧ Rising s.lp.cb.ws.file es := by
    intro x hx
    exact ⟨[], by simp [hx], fun n m _ => by rw [fileAt_nil, fileAt_nil]; exact Nat.le_refl _⟩
  cases e with
  | put k t bs =>
    simp only [step] at hs
    (repeat' split at hs) <;> cases hs <;> exact hsame rfl
  | delete k =>
    simp only [step] at hs
    (repeat' split at hs) <;> cases hs <;> exact hsame rfl
  | clear => exact absurd rfl hnc
  | drop =>
    simp only [step] at hs
    (repeat' split at hs) <;> cases hs <;> exact hsame rfl
  | api i =>
    simp only [step] at hs
    have hclr := hu.clr
    cases hp : s.phase with
    | idle => simp [hp] at hs
    | closed => simp [hp] at hs
    | push j =>
      simp only [hp, Option.some.injEq, Prod.mk.injEq] at hs
      obtain ⟨rfl, rfl⟩ := hs
      apply hsame
      unfold Looper.push
      split <;> rfl
    | send =>
      simp only [hp, Option.some.injEq, Prod.mk.injEq] at hs
      obtain ⟨rfl, rfl⟩ := hs
      apply hsame
      unfold Looper.send
      split
      · split <;> rfl
      · rfl
    | clrPush => simp [hp, Phase.clearing] at hclr
    | clrSend => simp [hp, Phase.clearing] at hclr
    | clrQuit => simp [hp, Phase.clearing] at hclr
    | clrJoin => simp [hp, Phase.clearing] at hclr
    | clrOpen => simp [hp, Phase.clearing] at hclr
  | io o =>
    have hbook := h.book
    obtain ⟨cb0, hcb0, hinv⟩ := hbook.inv
    simp only [step] at hs
    split at hs
    · cases hs
    rename_i lp hlp
    simp only [Option.some.injEq, Prod.mk.injEq] at hs
    obtain ⟨rfl, rfl⟩ := hs
    unfold Looper.ioStep at hlp
    cases hio : s.lp.io with
    | recv =>
      simp only [hio] at hlp
      split at hlp
      · injection hlp with hlp; subst hlp; exact hsame rfl
      · injection hlp with hlp; subst hlp; exact hsame rfl
      · split at hlp
        · cases hlp
        · injection hlp with hlp; subst hlp; exact hsame rfl
    | swap => simp only [hio] at hlp; injection hlp with hlp; subst hlp; exact hsame rfl
    | unwinding => exact absurd hio h.alive.1
    | exited => simp [hio] at hlp
    | dead => exact absurd hio h.alive.2
    | run =>
      simp only [hio] at hlp
      cases hbuf : s.lp.buf with
      | nil => simp only [hbuf] at hlp; injection hlp with hlp; subst hlp; exact hsame rfl
      | cons j rest =>
        simp only [hbuf] at hlp
        have hsp := hinv.split
        rw [hbook.late, List.append_nil, hbuf] at hsp
        have hmem : j ∈ s.jobs := by unfold Inst.jobs; rw [← hsp]; simp
        have hjs : ∃ tl, s.jobs = s.lp.ran.map (·.2) ++ j :: tl := by
          unfold Inst.jobs; rw [← hsp]; exact ⟨rest ++ (s.lp.queue ++ s.phase.inflight), by simp only [List.append_assoc, List.cons_append]⟩
        obtain ⟨tl, hjs⟩ := hjs
        have hran : s.lp.ran.length + 1 ≤ s.jobs.length := by rw [hjs]; simp
        obtain ⟨pre, post, K0, content, items, hcs, htr, hwi, hK, hdisk⟩ := h.ex
        cases j with
        | remove =>
          have := hu.buf .remove (by rw [hbuf]; exact List.mem_cons_self)
          simp [Job.isWrite] at this
        | write b dup =>
          obtain ⟨hokb, hlb⟩ := h.jobsOk b dup hmem
          have hpos : E.posOk items.length := (E.lawful s.idx).posOk_mono _ _ hroom.2 (by have := hwi.count; omega)
          obtain ⟨rb, henc, hrl, _⟩ := (E.lawful s.idx).enc_dec b items.length hokb hpos
          obtain ⟨hk1, _, _⟩ := hc.kept content items hwi.toValid
          have hle2 : jobsSize E.recLen (s.lp.ran.map (·.2)) + E.recLen b ≤ R := by
            have := hc.jobs
            rw [hjs, jobsSize_append] at this
            have h2 : E.recLen b ≤ jobsSize E.recLen (Job.write b dup :: tl) := by simp [jobsSize, Job.size]
            omega
          have hF := hc.size
          have hfit : content.length + 8 + rb.length ≤ s.lp.cb.ws.file.length := by omega
          have heff := effects_fit o b dup hwi.toValid henc hfit
          have hlog := effects_log (c := E.codecs s.idx) o b dup s.lp.cb.ws
          have hpage := h.page
          have hsz : rb.length + content.length < 2 ^ 64 := by
            have h1 := hwi.size
            have h2 := hroom.1
            rw [hpage] at h1
            have h3 : E.page * (K0 + s.lp.ran.length + 1) ≤ E.page * (K + cs.length) := Nat.mul_le_mul_left _ (by omega)
            rw [Nat.mul_add, Nat.mul_one] at h3
            omega
          refine ⟨s.lp.cb.ws.effects (E.codecs s.idx) o b dup, ?_, by rw [heff]; exact rising_fit hwi.holds hfit hsz⟩
          rw [← hlog]
          simp only [execJob] at hlp
          cases hw : s.lp.cb.ws.write (E.codecs s.idx) o b dup with
          | done ws => simp only [hw] at hlp; injection hlp with hlp; subst hlp; rfl
          | panic ws => simp only [hw] at hlp; injection hlp with hlp; subst hlp; rfl

theorem rising_run {E : Env ι} {i0 : ι} {S0 : Store} {K F C0 T : Nat} {items0 : List (Option Buffer)}
    (hT : 8 + C0 + T ≤ F) (es : List (Ev ι)) : ∀ {cs : List Mutation} {s s' : Inst ι} {rs : List (Out Unit)} {R : Nat},
    DInv E S0 K cs s → RInv E i0 F C0 items0 R cs s → Uncleared s → s.lp.cb.ws.mmLen = s.lp.cb.ws.file.length → (∀ e ∈ es, e.Ok E) → (∀ e ∈ es, e ≠ .clear) →
    E.Room (K + cs.length + (calls es).length) → R + ((calls es).map (mutSize E.recLen)).sum ≤ T → run E.codecs s es = some (s', rs) →
    ∃ l, s'.lp.cb.ws.log = s.lp.cb.ws.log ++ l ∧ Rising s.lp.cb.ws.file l := by
  induction es with
  | nil =>
    intro cs s s' rs R _ hc _ _ _ _ _ _ hs
    simp only [run, Option.some.injEq, Prod.mk.injEq] at hs
    obtain ⟨rfl, rfl⟩ := hs
    exact ⟨[], by simp, fun n m _ => by rw [fileAt_nil, fileAt_nil]; exact Nat.le_refl _⟩
  | cons e es ih =>
    intro cs s s' rs R h hc hu hmm he hnc hroom hR hs
    unfold run at hs
    split at hs
    · cases hs
    rename_i s1 r1 hs1
    split at hs
    · cases hs
    rename_i s2 rs2 hs2
    simp only [Option.some.injEq, Prod.mk.injEq] at hs
    obtain ⟨rfl, rfl⟩ := hs
    have hne : Nonempty ι := ⟨s.idx⟩
    have hcl := calls_cons e es
    have hr1 : E.Room (K + cs.length) := hroom.mono (by omega)
    rw [hcl, List.map_append, List.sum_append] at hR
    obtain ⟨_, hd1⟩ := dinv_step h (he e List.mem_cons_self) hr1 hs1
    have hc1 := rinv_step h hc hT (by omega) (he e List.mem_cons_self) (hnc e List.mem_cons_self) hr1 hs1
    obtain ⟨hu1, htr⟩ := uncleared_step hu (hnc e List.mem_cons_self) hs1
    obtain ⟨es1, g1, g2, g3, _⟩ := htr hmm
    obtain ⟨l1, k1, k2⟩ := rising_step h hc hT (by omega) (hnc e List.mem_cons_self) hr1 hs1 hu
    have hl1 : l1 = es1 := List.append_cancel_left (k1.symm.trans g1)
    subst hl1
    obtain ⟨l2, k3, k4⟩ := ih hd1 hc1 hu1 g3 (fun x hx => he x (List.mem_cons_of_mem _ hx)) (fun x hx => hnc x (List.mem_cons_of_mem _ hx)) (by
      rw [hcl] at hroom
      simpa [Nat.add_assoc] using hroom) (by omega) hs2
    exact ⟨l1 ++ l2, by rw [k3, k1, List.append_assoc], k2.comp (by rw [g2]; exact k4)⟩

end Inst
end Mmkv
