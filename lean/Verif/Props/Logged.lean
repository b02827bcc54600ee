import Verif.Model.Logged
import Verif.Props.Quota
/-!
# C65: the logger and the data

The property a user expects: whatever my logger does - panicking included - what the store holds is not harmed, and calls that
returned `Ok` are written.
-/

namespace Mmkv
open Spec Inst WState

/-- Messages of this level are filtered out, or the log thread stays alive. -/
def Logs.Harmless (l : Logs) (lv : LogLevel) : Prop := l.level < lv.code ∨ l.left = none

/-- The result of code that does not log, beside an unchanged logger. -/
def withLogs (l : Logs) : Run WState → Run LState
  | .done s => .done (s, l)
  | .panic s => .panic (s, l)

theorem say_harmless {l : Logs} {lv : LogLevel} (h : l.Harmless lv) (s : WState) : say lv (s, l) = .done (s, l) := by
  unfold say
  rcases h with h | h
  · simp [h]
  · simp [h]

theorem sayN_harmless {l : Logs} {lv : LogLevel} (h : l.Harmless lv) (s : WState) (n : Nat) : sayN lv n (s, l) = .done (s, l) := by
  induction n with
  | zero => rfl
  | succ n ih => simp only [sayN, say_harmless h, Run.andThen_done, ih]

theorem Logs.Harmless.info {l : Logs} (h : l.Harmless .error) : l.Harmless .info := by
  rcases h with h | h
  · left; simp only [LogLevel.code] at h ⊢; omega
  · exact .inr h

theorem mute_eq (f : WState → Run WState) (s : WState) (l : Logs) : mute f (s, l) = withLogs l (f s) := by
  unfold mute withLogs
  cases f s <;> rfl

theorem withLogs_andThen (l : Logs) (r : Run WState) (f : WState → Run WState) (g : LState → Run LState)
    (h : ∀ s, g (s, l) = withLogs l (f s)) : (withLogs l r).andThen g = withLogs l (r.andThen f) := by
  cases r with
  | done s => exact h s
  | panic s => rfl

theorem expandL_harmless {l : Logs} (h : l.Harmless .info) (s : WState) : expandL (s, l) = withLogs l s.expand := by
  unfold expandL
  rw [say_harmless h, Run.andThen_done, mute_eq]
  unfold growFile expand
  simp only
  split
  · simp only [withLogs, Run.andThen_done, say_harmless h, mute, remap, List.length_append, zeros, List.length_replicate]
  · rfl

theorem trimLoopL_harmless {l : Logs} (h : l.Harmless .info) (c : Codec) (maxLen : Nat) (bs : List Buffer) (s : WState) :
    trimLoopL c maxLen bs (s, l) = withLogs l (trimLoop c maxLen bs s) := by
  induction bs generalizing s with
  | nil => rfl
  | cons b rest ih =>
    simp only [trimLoopL, trimLoop]
    cases henc : c.enc b s.position with
    | none => rfl
    | some bytes =>
      simp only
      cases hoff : s.writeOffset with
      | none => rfl
      | some off =>
        simp only
        have h1 : (if off + bytes.length > maxLen then expandL (s, l) else .done (s, l)) =
            withLogs l (if off + bytes.length > maxLen then s.expand else .done s) := by
          split
          · exact expandL_harmless h s
          · rfl
        rw [h1, withLogs_andThen (f := fun s => s.append bytes) (h := fun s => mute_eq _ s l),
          withLogs_andThen (f := fun s => .done { s with position := s.position + 1 }) (h := fun s => mute_eq _ s l),
          withLogs_andThen (h := fun s => ih s)]

/-- What a write comes down to, with and without log calls, once the record is encoded and the header read. -/
theorem writeL_tree {c : Codec} {o : List Buffer → List Buffer} {b : Buffer} {d : Bool} {s : WState} {l : Logs}
    {P : Run LState → Run WState → Prop}
    (stop : P (.panic (s, l)) (.panic s))
    (go : ∀ (data : Bytes) (off : Nat) (s1 : WState), s1.file = s.file → s1.readErrors c = s.readErrors c →
      P (if data.length + off ≤ s.mmLen then withLogs l ((s1.append data).andThen fun s => .done { s with position := s.position + 1 })
         else if s1.needTrim then
           ((say .info (s1, l)).andThen (say .info)).andThen fun p =>
            match p.1.readItems c with
            | none => .panic p
            | some items =>
              (((((sayN .error (p.1.readErrors c) p).andThen (say .info)).andThen (mute reset)).andThen fun p =>
                trimLoopL c s.mmLen (o (mapStep (intoMap items).1 (some b)).values) ({ p.1 with position := 0 }, p.2)).andThen
                (mute fun s => .done { s with needTrim := false })).andThen (say .info)
         else (expandL (s1, l)).andThen
           (mute fun s => (s.append data).andThen fun s => .done { s with position := s.position + 1 }))
        (if data.length + off ≤ s.mmLen then (s1.append data).andThen fun s => .done { s with position := s.position + 1 }
         else if s1.needTrim then
           match s1.readItems c with
           | none => .panic s1
           | some items =>
             (s1.reset.andThen fun s' =>
               trimLoop c s.mmLen (o (mapStep (intoMap items).1 (some b)).values) { s' with position := 0 }).andThen
               fun s => .done { s with needTrim := false }
         else (s1.expand.andThen fun s => s.append data).andThen fun s => .done { s with position := s.position + 1 })) :
    P (writeL c o b d (s, l)) (write c o b d s) := by
  unfold writeL write
  simp only
  cases henc : c.enc b s.position with
  | none => exact stop
  | some data =>
    simp only
    cases hoff : s.writeOffset with
    | none => exact stop
    | some off =>
      simp only
      cases d with
      | true =>
        have := go data off { s with needTrim := true } rfl rfl
        have e := mute_eq (fun s => (s.append data).andThen fun s => .done { s with position := s.position + 1 })
          { s with needTrim := true } l
        simp only [← e] at this
        exact this
      | false =>
        have := go data off s rfl rfl
        have e := mute_eq (fun s => (s.append data).andThen fun s => .done { s with position := s.position + 1 }) s l
        simp only [← e] at this
        exact this

/-- The log calls of a write change nothing while they return. -/
theorem writeL_harmless {l : Logs} (h : l.Harmless .info) (c : Codec) (o : List Buffer → List Buffer) (b : Buffer) (d : Bool)
    (s : WState) (he : l.Harmless .error ∨ s.readErrors c = 0) :
    writeL c o b d (s, l) = withLogs l (write c o b d s) := by
  refine writeL_tree (P := fun r r' => r = withLogs l r') rfl fun data off s1 _ hre => ?_
  rw [← hre] at he
  by_cases h1 : data.length + off ≤ s.mmLen
  · rw [if_pos h1, if_pos h1]
  · rw [if_neg h1, if_neg h1]
    by_cases h2 : s1.needTrim = true
    · rw [if_pos h2, if_pos h2, say_harmless h, Run.andThen_done, say_harmless h, Run.andThen_done]
      simp only
      cases hr : s1.readItems c with
      | none => rfl
      | some items =>
        simp only
        have h3 : sayN .error (s1.readErrors c) (s1, l) = .done (s1, l) := by
          rcases he with he | he
          · exact sayN_harmless he _ _
          · rw [he]; rfl
        rw [h3, Run.andThen_done, say_harmless h, Run.andThen_done, mute_eq]
        cases s1.reset with
        | panic s => rfl
        | done s' =>
          simp only [withLogs, Run.andThen_done, trimLoopL_harmless h]
          cases trimLoop c s.mmLen _ _ with
          | panic s => rfl
          | done s => simp only [Run.andThen_done, mute, say_harmless h]
    · rw [if_neg h2, if_neg h2, expandL_harmless h, withLogs_andThen (h := fun s => mute_eq _ s l)]
      congr 1
      generalize s1.expand = r
      cases r <;> rfl

/-- **C65**, a logger that does not panic (or is not asked) changes nothing: every write does to the file, byte for byte, what
it would do without logging. -/
theorem C65_logging_changes_nothing {l : Logs} (h : l.left = none ∨ l.level = LogLevel.off.code) (c : Codec)
    (js : List WriteJob) (s : WState) : jobsL c js (s, l) = withLogs l (jobs c js s) := by
  have hl : l.Harmless .error := by
    rcases h with h | h
    · exact .inr h
    · left; rw [h]; decide
  induction js generalizing s with
  | nil => rfl
  | cons j js ih =>
    obtain ⟨o, b, d⟩ := j
    simp only [jobsL, jobs]
    rw [writeL_harmless hl.info c o b d s (.inl hl), withLogs_andThen (h := ih)]

theorem sayN_dead {l : Logs} (h : l.left = some 0) (hl : ¬ l.level < LogLevel.error.code) (s : WState) {n : Nat} (hn : n ≠ 0) :
    sayN .error n (s, l) = .panic (s, l) := by
  cases n with
  | zero => exact absurd rfl hn
  | succ n => simp [sayN, say, hl, h]

/-- One write while the log thread is dead: what it would do without logging, or a panic that leaves the file as it is. -/
theorem writeL_dead {l : Logs} (hd : l.left = some 0) (c : Codec) (o : List Buffer → List Buffer) (b : Buffer) (d : Bool)
    (s : WState) : writeL c o b d (s, l) = withLogs l (write c o b d s) ∨
      ∃ s', writeL c o b d (s, l) = .panic (s', l) ∧ s'.file = s.file := by
  by_cases hi : l.level < LogLevel.info.code
  · by_cases he : l.level < LogLevel.error.code
    · exact .inl (writeL_harmless (.inl hi) c o b d s (.inl (.inl he)))
    · by_cases hr : s.readErrors c = 0
      · exact .inl (writeL_harmless (.inl hi) c o b d s (.inr hr))
      · have h : l.Harmless .info := .inl hi
        refine writeL_tree (P := fun r r' => r = withLogs l r' ∨ ∃ s', r = .panic (s', l) ∧ s'.file = s.file) (.inl rfl)
          fun data off s1 hf hre => ?_
        by_cases h1 : data.length + off ≤ s.mmLen
        · rw [if_pos h1, if_pos h1]; exact .inl rfl
        · rw [if_neg h1, if_neg h1]
          by_cases h2 : s1.needTrim = true
          · rw [if_pos h2, if_pos h2, say_harmless h, Run.andThen_done, say_harmless h, Run.andThen_done]
            simp only
            cases hi : s1.readItems c with
            | none => exact .inl rfl
            | some items =>
              right
              simp only
              rw [sayN_dead hd he s1 (by rw [hre]; exact hr)]
              exact ⟨s1, rfl, hf⟩
          · left
            rw [if_neg h2, if_neg h2, expandL_harmless h, withLogs_andThen (h := fun s => mute_eq _ s l)]
            congr 1
            generalize s1.expand = r
            cases r <;> rfl
  · have hsay : ∀ s : WState, say .info (s, l) = .panic (s, l) := fun s => by simp [say, hi, hd]
    refine writeL_tree (P := fun r r' => r = withLogs l r' ∨ ∃ s', r = .panic (s', l) ∧ s'.file = s.file) (.inl rfl)
      fun data off s1 hf hre => ?_
    by_cases h1 : data.length + off ≤ s.mmLen
    · rw [if_pos h1, if_pos h1]; exact .inl rfl
    · rw [if_neg h1, if_neg h1]
      right
      by_cases h2 : s1.needTrim = true
      · rw [if_pos h2, hsay]; exact ⟨s1, rfl, hf⟩
      · rw [if_neg h2]; unfold expandL; rw [hsay]; exact ⟨s1, rfl, hf⟩

/-- The writer a run has come to. -/
def Run.writer : Run LState → WState
  | .done p => p.1
  | .panic p => p.1

/-- A write that does not compact, whatever the logger does: it does what it would do without logging, or panics, with the
file as it was but for zeros at its end. -/
theorem writeL_append (c : Codec) (o : List Buffer → List Buffer) (b : Buffer) (s : WState) (l : Logs)
    (hn : s.needTrim = false) (hq : s.quota = none) :
    (∃ l', writeL c o b false (s, l) = withLogs l' (write c o b false s)) ∨
      ∃ s' l' n, writeL c o b false (s, l) = .panic (s', l') ∧ s'.file = s.file ++ zeros n := by
  unfold writeL write
  simp only
  cases henc : c.enc b s.position with
  | none => exact .inl ⟨l, rfl⟩
  | some data =>
    simp only
    cases hoff : s.writeOffset with
    | none => exact .inl ⟨l, rfl⟩
    | some off =>
      simp only [Bool.false_eq_true, if_false, hn]
      split
      · exact .inl ⟨l, mute_eq _ _ _⟩
      · have say2 : ∀ (s : WState) (l : Logs), say .info (s, l) = .panic (s, l) ∨ ∃ l', say .info (s, l) = .done (s, l') := by
          intro s l
          unfold say
          split
          · exact .inr ⟨_, rfl⟩
          · split
            · exact .inr ⟨_, rfl⟩
            · exact .inl rfl
            · exact .inr ⟨_, rfl⟩
        unfold expandL
        rcases say2 s l with h1 | ⟨l1, h1⟩
        · right
          rw [h1]
          exact ⟨s, l, 0, rfl, by simp [zeros]⟩
        · rw [h1, Run.andThen_done]
          simp only [mute, growFile, hq, Option.all_none, if_true, Run.andThen_done]
          rcases say2 { s with file := s.file ++ zeros s.page, quota := none, log := s.log ++ [.setLen (s.file.length + s.page)] } l1
            with h2 | ⟨l2, h2⟩
          · right
            rw [h2]
            exact ⟨_, _, _, rfl, rfl⟩
          · left
            refine ⟨l2, ?_⟩
            rw [h2]
            simp only [Run.andThen_done, expand, hq, Option.all_none, if_true]
            rw [mute_eq]
            simp only [remap, withLogs, Run.andThen_done, List.length_append, zeros, List.length_replicate]
            rw [mute_eq]
            rfl

/-- A job as the library posts it: the order is a permutation, the record fits a page. -/
def WriteJob.Fits (page : Nat) (j : WriteJob) : Prop :=
  (∀ l, (j.1 l).Perm l) ∧ recordSize j.2.1.key j.2.1.type j.2.1.value ≤ page

theorem WriteJob.Fits.crc {page : Nat} {j : WriteJob} (h : j.Fits page) (h32 : page < 2 ^ 32) :
    crcOk j.2.1 ∧ crcLen j.2.1 ≤ page := by
  have h2 := h.2
  simp only [recordSize, crcOk, crcLen] at h2 ⊢
  have e : (⟨j.2.1.key, j.2.1.type, j.2.1.value⟩ : Buffer) = j.2.1 := rfl
  rw [e] at h2
  omega

theorem good_of_winv {page K : Nat} {h8 : 8 ≤ page} {s : WState} {content : Bytes} {items : List (Option Buffer)}
    (h : WInv crcCodec crcOk crcLen True K s content items) (hp : s.page = page) (n : Nat) :
    GoodFile (plainEnv page h8 True) crcCodec K (s.file ++ zeros n) (Store.empty.run (mutations items)) := by
  obtain ⟨h1, t, h2⟩ := h.holds
  refine .held ⟨h1, t ++ zeros n, by rw [h2]; simp⟩ h.framed h.bufs ?_ h.count ?_ fun _ => trivial
  · have := h.fits; rw [hp] at this; exact this
  · have := h.size; rw [hp] at this; exact this

/-- How one write can end while the log calls may panic, in the cases where nothing is lost. -/
def Spared (l : Logs) (js : List WriteJob) (s : WState) : Prop :=
  l.left = some 0 ∨ s.needTrim = false ∧ ∀ j ∈ js, j.2.2 = false

theorem jobsL_spared {page : Nat} (h8 : 8 ≤ page) (h32 : page < 2 ^ 32) (js : List WriteJob) {K : Nat} {s : WState} {l : Logs}
    {content : Bytes} {items : List (Option Buffer)} (h : WInv crcCodec crcOk crcLen True K s content items)
    (hp : s.page = page) (hj : ∀ j ∈ js, WriteJob.Fits page j) (hroom : page * (K + js.length) + 8 < 2 ^ 64)
    (hs : Spared l js s) :
    ∃ m, m ≤ js.length ∧ (∀ p, jobsL crcCodec js (s, l) = .done p → m = js.length) ∧
      GoodFile (plainEnv page h8 True) crcCodec (K + js.length) (jobsL crcCodec js (s, l)).writer.file
        ((Store.empty.run (mutations items)).run ((js.map (·.2.1.mutation)).take m)) := by
  induction js generalizing K s l content items with
  | nil =>
    refine ⟨0, Nat.le_refl 0, fun _ _ => rfl, ?_⟩
    simpa [jobsL, Run.writer, zeros, Store.run] using good_of_winv (h8 := h8) h hp 0
  | cons j js ih =>
    obtain ⟨o, b, d⟩ := j
    obtain ⟨hok, hlen⟩ := (hj _ List.mem_cons_self).crc h32
    have hord := (hj _ List.mem_cons_self).1
    simp only at hok hlen hord
    simp only [List.length_cons] at hroom ⊢
    have hr1 : page * (K + 1) ≤ page * (K + (js.length + 1)) := Nat.mul_le_mul_left _ (by omega)
    obtain ⟨s', content', items', hw, hwi, hconf, hshape, hmut⟩ := write_done crc_lawful o hord b d K h hok
      (by rw [hp]; exact hlen) (by rw [hp]; omega) trivial
    have hp' : s'.page = page := hconf.1.trans hp
    have stop : ∀ n, GoodFile (plainEnv page h8 True) crcCodec (K + (js.length + 1)) (s.file ++ zeros n)
        ((Store.empty.run (mutations items)).run (List.take 0 (((o, b, d) :: js).map (·.2.1.mutation)))) := by
      intro n
      have := good_of_winv (h8 := h8) (h.mono (show K ≤ K + (js.length + 1) by omega)) hp n
      simpa [Store.run] using this
    have next : ∀ l', Spared l' js s' →
        ∃ m, m ≤ js.length + 1 ∧ (∀ p, jobsL crcCodec js (s', l') = .done p → m = js.length + 1) ∧
          GoodFile (plainEnv page h8 True) crcCodec (K + (js.length + 1)) (jobsL crcCodec js (s', l')).writer.file
            ((Store.empty.run (mutations items)).run ((((o, b, d) :: js).map (·.2.1.mutation)).take m)) := by
      intro l' hs'
      obtain ⟨m, hm, hall, hg⟩ := ih (l := l') hwi hp' (fun j hj' => hj j (List.mem_cons_of_mem _ hj'))
        (by rw [show K + 1 + js.length = K + (js.length + 1) by omega]; exact hroom) hs'
      refine ⟨m + 1, by omega, fun p hp => by rw [hall p hp], ?_⟩
      rw [hmut] at hg
      rw [show K + 1 + js.length = K + (js.length + 1) by omega] at hg
      simpa [Store.run] using hg
    simp only [jobsL]
    rcases hs with hd | ⟨hn, hdup⟩
    · rcases writeL_dead hd crcCodec o b d s with e | ⟨sp, e, hf⟩
      · rw [e, hw]
        exact next l (.inl hd)
      · rw [e]
        refine ⟨0, by omega, fun p hp => by simp [Run.andThen] at hp, ?_⟩
        have := stop 0
        simpa [Run.andThen, Run.writer, hf, zeros] using this
    · have hd0 : d = false := hdup _ List.mem_cons_self
      subst hd0
      rcases writeL_append crcCodec o b s l hn h.quota with ⟨l', e⟩ | ⟨sp, l', n, e, hf⟩
      · rw [e, hw]
        refine next l' (.inr ⟨?_, fun j hj' => hdup j (List.mem_cons_of_mem _ hj')⟩)
        exact Inst.write_needTrim hn hw
      · rw [e]
        refine ⟨0, by omega, fun p hp => by simp [Run.andThen] at hp, ?_⟩
        have := stop n
        simpa [Run.andThen, Run.writer, hf] using this

/-- **C65**, the part that holds, on a plain store opened from any file (records of at most a page): when the logger has
failed before the first of the writes - or fails at any time while only keys are added - the file afterwards, whether the
background thread has come through or died, opens and shows the map changed by the first `m` of the calls; by all of them if
the thread has come through. -/
theorem C65_partial {page : Nat} (h8 : 8 ≤ page) (h32 : page < 2 ^ 32) {file : Bytes} {s0 : Inst Unit} {S0 : Store}
    (hopen : openAt plain () page file = some s0) (h0 : s0.Shows S0) (hrec : RecordsFit page file ∨ Canonical file)
    (l : Logs) (js : List WriteJob) (hj : ∀ j ∈ js, WriteJob.Fits page j)
    (hroom : page * (file.length + js.length) + 8 < 2 ^ 64)
    (hl : l.left = some 0 ∨ ∀ j ∈ js, j.2.2 = false) :
    ∃ m s, m ≤ js.length ∧ (∀ p, jobsL crcCodec js (s0.lp.cb.ws, l) = .done p → m = js.length) ∧
      openAt plain () page (jobsL crcCodec js (s0.lp.cb.ws, l)).writer.file = some s ∧
      s.Shows (S0.run ((js.map (·.2.1.mutation)).take m)) := by
  have hg := goodFile_of_open (h8 := h8) (h32 := h32) hopen hrec
  rw [(shows_open hopen).1 h0] at hg
  obtain ⟨o, content, items, ho, hv, hw, hS, hpg, _⟩ := openStore_good hg
  have hws : s0.lp.cb.ws = o.ws := by
    have ho' : openStore (plain ()) page file = some o := ho
    unfold openAt at hopen
    rw [ho'] at hopen
    injection hopen with hopen
    rw [← hopen]; rfl
  have hnt : o.ws.needTrim = false := by
    have ho' : openStore (plain ()) page file = some o := ho
    unfold openStore at ho'
    simp only [] at ho'
    split at ho'
    · cases ho'
    split at ho'
    · cases ho'
    · injection ho' with ho'; subst ho'; rfl
  obtain ⟨m, hm, hall, hg'⟩ := jobsL_spared h8 h32 js (l := l) hw hpg hj hroom
    (by rcases hl with hl | hl
        · exact .inl hl
        · exact .inr ⟨hnt, hl⟩)
  obtain ⟨s, hs, hd, _⟩ := dinv_open (E := plainEnv page h8 True) (i := ()) hg'
  rw [hS] at hd
  refine ⟨m, s, hm, fun p hp => ?_, ?_, ?_⟩
  · rw [hws] at hp; exact hall p hp
  · rw [hws]; exact hs
  · refine shows_of_view hs ?_
    simpa [Store.run] using hd.kvView

/-- A fresh store with 64-byte pages. -/
def blank64 : WState := ⟨zeros 64, 64, 64, 0, false, 8, none, []⟩

/-- The writes of a put of `a`, a put of `b`, and a put that replaces `b`. -/
def twoPuts : List WriteJob := [(id, ⟨"a", 6, [1]⟩, false), (id, ⟨"b", 6, [2]⟩, false)]
def oneMore : WriteJob := (id, ⟨"b", 6, List.replicate 32 7⟩, true)

/-- The hypotheses of `C65_partial` are met by a logger that fails while the second put, for which the file has to grow, is
written: the first value stays. -/
example : ∃ s0, openAt plain () 64 [] = some s0 ∧ s0.Shows Store.empty ∧ s0.lp.cb.ws = blank64 ∧
    (∀ j ∈ twoPuts ++ [(id, ⟨"c", 6, List.replicate 32 7⟩, false)], WriteJob.Fits 64 j) ∧
    ∃ p, jobsL crcCodec (twoPuts ++ [(id, ⟨"c", 6, List.replicate 32 7⟩, false)]) (blank64, ⟨5, some 1⟩) = .panic p ∧
      p.1.file.length = 128 ∧ fileRecords crcCodec p.1.file = some [some ⟨"a", 6, [1]⟩, some ⟨"b", 6, [2]⟩] := by
  have h : (match jobsL crcCodec (twoPuts ++ [(id, ⟨"c", 6, List.replicate 32 7⟩, false)]) (blank64, ⟨5, some 1⟩) with
    | .panic p => decide (p.1.file.length = 128 ∧
        fileRecords crcCodec p.1.file = some [some ⟨"a", 6, [1]⟩, some ⟨"b", 6, [2]⟩])
    | .done _ => false) = true := by decide +kernel
  have ho : openAt plain () 64 [] = some { idx := (), kv := [], lp := Looper.new { ws := blank64 } } := by
    unfold openAt; rw [openStore_nil _ _ (by decide)]; rfl
  refine ⟨_, ho, (shows_open ho).2 rfl, rfl, ?_, ?_⟩
  · intro j hj
    simp only [twoPuts, List.cons_append, List.nil_append, List.mem_cons, List.not_mem_nil, or_false] at hj
    rcases hj with rfl | rfl | rfl <;> exact ⟨fun _ => .refl _, by decide⟩
  · split at h
    · rename_i p hp
      exact ⟨p, hp, by simpa using h⟩
    · cases h

/-- **C65 is false**: a logger that panics can cost data.  `a` and `b` are put and are in the file; a put replaces `b`, and
the log thread dies after three messages, while the compaction this starts is under way: `a`, which nobody touched, is gone from
the file.  With a logger that lives the same put is written (last line). -/
theorem C65_refuted : ∃ p1 p2 p3, jobsL crcCodec twoPuts (blank64, ⟨5, some 3⟩) = .done p1 ∧
    FileShows p1.1.file (Store.empty.run [.put "a" ⟨6, [1]⟩, .put "b" ⟨6, [2]⟩]) ∧
    jobsL crcCodec [oneMore] p1 = .panic p2 ∧
    FileShows p2.1.file (Store.empty.run [.put "b" ⟨6, List.replicate 32 7⟩]) ∧
    jobsL crcCodec [oneMore] (p1.1, ⟨5, none⟩) = .done p3 := by
  have h : (match jobsL crcCodec twoPuts (blank64, ⟨5, some 3⟩) with
    | .panic _ => false
    | .done p1 => match jobsL crcCodec [oneMore] p1, jobsL crcCodec [oneMore] (p1.1, ⟨5, none⟩) with
      | .panic p2, .done _ => decide (
        fileRecords crcCodec p1.1.file = some [some ⟨"a", 6, [1]⟩, some ⟨"b", 6, [2]⟩] ∧ p1.1.file.length = 64 ∧
        fileRecords crcCodec p2.1.file = some [some ⟨"b", 6, List.replicate 32 7⟩] ∧ p2.1.file.length = 64)
      | _, _ => false) = true := by decide +kernel
  split at h
  · cases h
  rename_i p1 h1
  split at h
  · rename_i p2 p3 h2 h3
    simp only [decide_eq_true_eq] at h
    obtain ⟨g3, g4, g5, g6⟩ := h
    refine ⟨p1, p2, p3, h1, ?_, h2, ?_, h3⟩
    · have hr : AtRest (WState.mk p1.1.file p1.1.file.length 64 2 false 8 none []) [some ⟨"a", 6, [1]⟩, some ⟨"b", 6, [2]⟩] :=
        ⟨rfl, g3, rfl, rfl, rfl⟩
      simpa [mutations, Buffer.mutation, Buffer.isDeleting, deletedToken, Buffer.entry] using hr.fileShows
    · have hr : AtRest (WState.mk p2.1.file p2.1.file.length 64 1 false 8 none []) [some ⟨"b", 6, List.replicate 32 7⟩] :=
        ⟨rfl, g5, rfl, rfl, rfl⟩
      simpa [mutations, Buffer.mutation, Buffer.isDeleting, deletedToken, Buffer.entry] using hr.fileShows
  · cases h

/-- **C65 is false** for opening too: once a logger has panicked, with the log level at `Info` or above no file can be opened -
`MMKV::new` panics, whatever the file. -/
theorem C65_refuted_open (c : Codec) (page : Nat) (file : Bytes) (l : Logs) (hd : l.left = some 0)
    (hl : LogLevel.info.code ≤ l.level) : openStoreL c page file l = none := by
  unfold openStoreL
  cases openStore c page file with
  | none => rfl
  | some o =>
    have e1 : ¬ l.level < LogLevel.error.code := by simp only [LogLevel.code] at hl ⊢; omega
    have e2 : ¬ l.level < LogLevel.info.code := by omega
    simp only
    by_cases hr : o.ws.readErrors c = 0
    · rw [hr]; simp [sayN, say, e2, hd]
    · rw [sayN_dead hd e1 _ hr]; rfl

/-- While the logger has not failed, opening is as it was. -/
theorem C65_open_unchanged (c : Codec) (page : Nat) (file : Bytes) (l : Logs)
    (h : l.left = none ∨ l.level = LogLevel.off.code) :
    openStoreL c page file l = (openStore c page file).map fun o => (o, l) := by
  have hl : l.Harmless .error := by
    rcases h with h | h
    · exact .inr h
    · left; rw [h]; decide
  unfold openStoreL
  cases openStore c page file with
  | none => rfl
  | some o => simp only [sayN_harmless hl, Run.andThen_done, say_harmless hl.info, Option.map_some]

theorem iterErrors_damaged (c : Codec) : ∀ (fuel pos : Nat) (bytes : Bytes) (items : List (Option Buffer)),
    iterLoop c fuel pos bytes = some items → none ∈ items → iterErrors c fuel pos bytes ≠ 0
  | fuel, pos, [], items, h, hn => by
    cases fuel <;> (simp only [iterLoop, Option.some.injEq] at h; subst h; cases hn)
  | 0, pos, b :: bs, items, h, hn => by simp [iterLoop] at h
  | fuel + 1, pos, b :: bs, items, h, hn => by
    unfold iterLoop at h
    unfold iterErrors
    cases hd : c.dec (b :: bs) pos with
    | panic => simp only [hd] at h; cases h
    | err e => simp
    | ok ob len =>
      simp only [hd] at h ⊢
      obtain ⟨items', h', rfl⟩ := Option.map_eq_some_iff.1 h
      cases ob with
      | none => simp
      | some b' =>
        have := iterErrors_damaged c fuel (pos + 1) _ items' h' (by simpa using hn)
        simpa using this

theorem iterErrors_framed {c : Codec} {pos : Nat} {content : Bytes} {items : List (Option Buffer)}
    (h : Framed c pos content items) (hn : none ∉ items) :
    ∀ fuel, content.length ≤ fuel → iterErrors c fuel pos content = 0 := by
  induction h with
  | nil pos => intro fuel _; cases fuel <;> rfl
  | cons pos chunk content ob items hne hdec htail ih =>
    intro fuel hf
    cases chunk with
    | nil => exact absurd rfl hne
    | cons x xs =>
      simp only [List.cons_append, List.length_cons, List.length_append] at hf
      cases fuel with
      | zero => omega
      | succ fuel =>
        have hd := hdec content
        simp only [List.cons_append] at hd ⊢
        simp only [iterErrors, hd]
        cases ob with
        | none => simp at hn
        | some b' =>
          rw [← List.cons_append, List.drop_left]
          simpa using ih (by simpa using hn) fuel (by omega)

/-- **C65 is false** for opening at the level `Error` too, when the file is damaged: once a logger has panicked, a file with a
record that does not decode - which a plain open skips - cannot be opened. -/
theorem C65_refuted_open_damaged (c : Codec) (page : Nat) (file : Bytes) (l : Logs) (hd : l.left = some 0)
    (hl : LogLevel.error.code ≤ l.level) (hc : configNew page file = file) {items : List (Option Buffer)}
    (hr : fileRecords c file = some items) (hn : none ∈ items) : openStoreL c page file l = none := by
  unfold openStoreL openStore
  rw [hc]
  by_cases h0 : file.length = 0
  · simp [h0]
  simp only [h0, if_false]
  have hr' : ({ file, mmLen := file.length, page, position := 0, needTrim := false } : WState).readItems c = some items := hr
  rw [hr']
  simp only
  have hne : ({ file, mmLen := file.length, page, position := (intoMap items).2, needTrim := false } : WState).readErrors c ≠ 0 := by
    unfold WState.readItems at hr'
    unfold WState.readErrors
    cases ho : ({ file, mmLen := file.length, page, position := 0, needTrim := false } : WState).writeOffset with
    | none => simp only [ho] at hr'; cases hr'
    | some e =>
      have ho' : ({ file, mmLen := file.length, page, position := (intoMap items).2, needTrim := false } : WState).writeOffset = some e := ho
      simp only [ho] at hr'
      simp only [ho']
      split at hr'
      · cases hr'; cases hn
      · split at hr'
        · cases hr'
        · exact iterErrors_damaged c _ _ _ _ hr' hn
  rw [sayN_dead hd (by omega) _ hne]
  rfl

/-- A file whose records all decode is opened at the level `Error` as if the logger were alive: nothing is said. -/
theorem C65_open_error_level (c : Codec) (page : Nat) (file : Bytes) (l : Logs) (hl : l.level = LogLevel.error.code)
    (hc : configNew page file = file) {content : Bytes} {items : List (Option Buffer)} (hh : Holds file content)
    (hf : Framed c 0 content items) (hn : none ∉ items) :
    openStoreL c page file l = (openStore c page file).map fun o => (o, l) := by
  unfold openStoreL
  cases ho : openStore c page file with
  | none => rfl
  | some o =>
    have he : o.ws.readErrors c = 0 := by
      unfold openStore at ho
      rw [hc] at ho
      by_cases h0 : file.length = 0
      · simp [h0] at ho
      simp only [h0, if_false] at ho
      split at ho
      · cases ho
      rename_i items' hi
      cases ho
      unfold WState.readErrors
      rw [writeOffset_eq (content := content) rfl rfl hh]
      show iterErrors c ((file.take (content.length + 8)).drop 8).length 0 ((file.take (content.length + 8)).drop 8) = 0
      rw [hh.body]
      exact iterErrors_framed hf hn _ (Nat.le_refl _)
    have hlt : l.level < LogLevel.info.code := by rw [hl]; decide
    simp only [he]
    simp [sayN, Run.andThen, say, hlt]

/-- A concrete damaged file: two puts, and the last byte of the first record overwritten.  The plain open skips the record; with
the logger dead and the level at `Error` there is no opening it. -/
def spoilt : Bytes :=
  match jobsL crcCodec twoPuts (blank64, ⟨5, none⟩) with
  | .done p => p.1.file.set 18 0xEE
  | .panic _ => []

example : configNew 64 spoilt = spoilt ∧ fileRecords crcCodec spoilt = some [none, some ⟨"b", 6, [2]⟩] ∧
    (openStore crcCodec 64 spoilt).isSome = true := by decide +kernel

example : openStoreL crcCodec 64 spoilt ⟨1, some 0⟩ = none :=
  C65_refuted_open_damaged crcCodec 64 spoilt ⟨1, some 0⟩ rfl (by decide) (by decide +kernel)
    (items := [none, some ⟨"b", 6, [2]⟩]) (by decide +kernel) (by decide)

end Mmkv
