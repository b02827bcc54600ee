import Verif.Props.Encrypt
import Verif.Props.Crash
import Verif.Model.Power
/-!
# C57: power failure
-/

namespace Mmkv
open Spec Inst
variable {ι : Type}

/-- Sessions one after the other, each closed by dropping the last handle, after each of which the power may fail
(`ClosedLoss`; `f = s'.disk` is the case in which it does not). -/
inductive PowerLife (codecs : ι → Codec) (page : Nat) : Dir ι → List (Session ι) → Dir ι → Prop
  | nil (d) : PowerLife codecs page d [] d
  | cons {d d' x xs s s' rs f} (hi : ∀ j, d.idx = some j → x.i = j)
      (ho : openAt codecs x.i page d.file = some s) (hr : run codecs s x.evs = some (s', rs))
      (hc : s'.closedOk) (hloss : ClosedLoss s'.disk f) (rest : PowerLife codecs page ⟨f, s'.dir.idx⟩ xs d') :
      PowerLife codecs page d (x :: xs) d'

theorem goodFile_loss {E : Env ι} {c : Codec} {K : Nat} {file f : Bytes} {S : Store} (h : GoodFile E c K file S)
    (hl : ClosedLoss file f) : GoodFile E c K f S := by
  obtain ⟨h1, h2⟩ := hl
  cases h with
  | empty =>
    have : f = [] := List.eq_nil_of_length_eq_zero (by simpa using h1)
    rw [this]
    exact .empty
  | @held _ content items hh hf hb hsz hk hs hn =>
    have hd := hh.header
    have hlen := hh.len
    rw [hd] at h2
    refine .held (content := content) ?_ hf hb hsz hk hs hn
    obtain ⟨hb64, tail, hfile⟩ := hh
    refine ⟨hb64, f.drop (content.length + 8), ?_⟩
    conv => lhs; rw [← List.take_append_drop (content.length + 8) f, h2]
    congr 1
    rw [hfile]
    exact List.take_left' (by simp; omega)

theorem powerLife_good {E : Env ι} {K : Nat} {d d' : Dir ι} {xs : List (Session ι)} {S0 : Store}
    (hl : PowerLife E.codecs E.page d xs d') (hg : GoodDir E K d S0)
    (hok : ∀ x ∈ xs, ∀ e ∈ x.evs, e.Ok E) (hroom : E.Room (K + callCount xs)) :
    GoodDir E (K + callCount xs) d' (S0.run (xs.map fun x => calls x.evs).flatten) := by
  induction hl generalizing K S0 with
  | nil d => simpa [callCount, Store.run] using hg
  | @cons d d' x xs s s' rs f hi ho hr hc hloss rest ih =>
    have hne : Nonempty ι := ⟨x.i⟩
    obtain ⟨s1, hs1, hinv, _⟩ := Inst.dinv_open (hg x.i hi)
    rw [ho] at hs1
    injection hs1 with hs1
    subst hs1
    have hcnt : callCount (x :: xs) = (calls x.evs).length + callCount xs := by simp [callCount]
    rw [hcnt] at hroom ⊢
    obtain ⟨hr1, hinv'⟩ := Inst.dinv_run x.evs hinv (hok x List.mem_cons_self)
      (by simp only [List.length_nil, Nat.add_zero]; exact hroom.mono (by omega)) hr
    rw [List.nil_append] at hinv'
    obtain ⟨m, hm, hmc, hg'⟩ := goodDir_end hinv' true (fun _ => hc)
    rw [hmc rfl, List.take_length] at hg'
    have := ih (K := K + (calls x.evs).length) (S0 := S0.run (calls x.evs))
      (fun i hi => goodFile_loss (hg' i hi) hloss)
      (fun y hy => hok y (List.mem_cons_of_mem _ hy)) (by rw [Nat.add_assoc]; exact hroom)
    rw [← Nat.add_assoc]
    simpa [run_append] using this

/-- **C57**, what is true: a power failure after a clean close loses nothing.  Any number of sessions on a fresh directory
with records of at most a page, each closed, the power failing after any of them: opening again shows exactly the plain
map of all the calls.  Missing from C57: a power failure while the store is open (`C57_refuted`), and encryption
(`C57_refuted_encrypted`). -/
theorem C57_closed_partial {page : Nat} (h8 : 8 ≤ page) (h32 : page < 2 ^ 32) {xs : List (Session Unit)} {d : Dir Unit}
    (hl : PowerLife plain page Dir.fresh xs d) (hfit : ∀ x ∈ xs, ∀ e ∈ x.evs, e.Fits page)
    (hroom : page * callCount xs + 8 < 2 ^ 64) :
    ∃ s, openAt plain () page d.file = some s ∧ s.Shows (Store.empty.run (allCalls xs)) := by
  have hg := powerLife_good (E := plainEnv page h8 False) (K := 0) hl (goodDir_fresh _ 0)
    (fun x hx e he => (hfit x hx e he).ok h32) (by rw [Nat.zero_add]; exact plain_room hroom)
  obtain ⟨s, hs, hv⟩ := openAt_goodDir hg () (fun _ _ => rfl)
  exact ⟨s, hs, shows_of_view hs hv⟩

/-- Non-vacuity: after the first demo session the rest of the page is filled with ones by the failure. -/
example : ∃ d, PowerLife plain 64 Dir.fresh (demoSessions.take 1) d ∧ d.file.length = 128 ∧ d.file.getLast? = some 255 := by
  have h : (match openAt plain () 64 [] with
    | none => false
    | some s0 => match run plain s0 demoSessions[0].evs with
      | none => false
      | some (s, _) => decide (s.phase = .closed ∧ s.lp.io = .exited ∧ s.disk.length = 128 ∧
          (s.disk.take 127 ++ [255]).take (beVal (s.disk.take 8) + 8) = s.disk.take (beVal (s.disk.take 8) + 8))) = true := by
    decide +kernel
  split at h
  · cases h
  rename_i s0 hs0
  split at h
  · cases h
  rename_i s rs hr
  simp only [decide_eq_true_eq] at h
  obtain ⟨h1, h2, h3, h4⟩ := h
  refine ⟨⟨s.disk.take 127 ++ [255], s.dir.idx⟩, ?_, by simp [h3], by simp⟩
  exact .cons (x := demoSessions[0]) (fun _ _ => rfl) hs0 hr ⟨h1, h2⟩ ⟨by simp [h3], h4⟩ (.nil _)

/-- **C57 is false** while the store is open, however long the background thread has been idle: on a fresh store with
64-byte pages two values are put, both calls return `Ok`, both records are in the mapped file (the first one synced when
the file grew), the thread is at rest.  If the power fails when the first page has been written back and the second has
not, the directory can never be opened again. -/
theorem C57_refuted : ∃ s rs f, fresh64 (fullPut "a" 6 (List.replicate 44 7) ++ fullPut "b" 6 [1]) = some (s, rs) ∧
    rs = [.ok (), .ok ()] ∧ s.phase = .idle ∧ s.lp.io = .recv ∧ s.lp.queue = [] ∧ s.lp.chan = [] ∧
    FileShows (durable (zeros 64) s.lp.cb.ws.log) (Store.empty.run [.put "a" ⟨6, List.replicate 44 7⟩]) ∧
    PowerLoss 64 (durable (zeros 64) s.lp.cb.ws.log) (sinceExpand s.lp.cb.ws.log) f ∧
    ∀ page, openAt plain () page f = none := by
  have h : passes (fresh64 (fullPut "a" 6 (List.replicate 44 7) ++ fullPut "b" 6 [1])) (fun s rs =>
      decide (rs = [.ok (), .ok ()] ∧ s.phase = .idle ∧ s.lp.io = .recv ∧ s.lp.queue = [] ∧ s.lp.chan = [] ∧
        fileRecords crcCodec (durable (zeros 64) s.lp.cb.ws.log) = some [some ⟨"a", 6, List.replicate 44 7⟩] ∧
        (durable (zeros 64) s.lp.cb.ws.log).length = 128 ∧ s.disk.length = 128 ∧
        (sinceExpand s.lp.cb.ws.log).foldl Eff.apply (durable (zeros 64) s.lp.cb.ws.log) = s.disk ∧
        (durable (zeros 64) s.lp.cb.ws.log).drop 64 = zeros 64 ∧
        fileRecords crcCodec (s.disk.take 64 ++ zeros 64) = none)) = true := by decide +kernel
  obtain ⟨s, rs, h1, h2⟩ := exists_of_passes h
  simp only [decide_eq_true_eq] at h2
  obtain ⟨g1, g2, g3, g4, g5, g6, g7, g8, g9, g10, g11⟩ := h2
  refine ⟨s, rs, s.disk.take 64 ++ zeros 64, h1, g1, g2, g3, g4, g5, ?_, ⟨by rw [List.length_append, List.length_take, g7, g8, zeros, List.length_replicate]; rfl, ?_⟩, openAt_of_reads (by simp [zeros]) g11⟩
  · generalize durable (zeros 64) s.lp.cb.ws.log = file at *
    have hr : AtRest (WState.mk file file.length 64 1 false 8 none []) [some ⟨"a", 6, List.replicate 44 7⟩] :=
      ⟨rfl, g6, rfl, rfl, rfl⟩
    have := hr.fileShows
    simpa [mutations, Buffer.mutation, Buffer.isDeleting, deletedToken, Buffer.entry] using this
  · intro p
    generalize durable (zeros 64) s.lp.cb.ws.log = base at *
    by_cases hp : p = 0
    · subst hp
      refine ⟨_, Nat.le_refl _, ?_⟩
      rw [List.take_length, g9]
      simp only [pageOf, Nat.zero_mul, List.drop_zero]
      exact List.take_left' (by simp [g8])
    · refine ⟨0, Nat.zero_le _, ?_⟩
      simp only [List.take_zero, List.foldl_nil, pageOf]
      have e1 : (s.disk.take 64 ++ zeros 64).drop (p * 64) = (zeros 64).drop (p * 64 - 64) := by
        have := List.drop_append (l₁ := s.disk.take 64) (l₂ := zeros 64) (i := p * 64)
        rw [this, List.drop_of_length_le (by rw [List.length_take]; omega), List.nil_append, List.length_take, g8]
        rfl
      have e2 : base.drop (p * 64) = (base.drop 64).drop (p * 64 - 64) := by
        rw [List.drop_drop, show 64 + (p * 64 - 64) = p * 64 by omega]
      rw [e1, e2, g10]

/-- **C57 is false** with encryption even after a clean close: the nonce file is never synced.  A session puts a value and
is closed; the power fails; the data file is intact but the nonce file is empty.  Opening with the right key succeeds,
shows nothing, and replaces the nonce: what was stored can never be read again. -/
theorem C57_refuted_encrypted : ∃ rss d left s, EncLife toy 80 EncDir.fresh (demoEnc.take 1) rss d ∧
    (∃ s1, openEnc toy 80 testKey (nonce1.map (· + 1)) d = some s1 ∧
      s1.getAs "b" 0 (Out.ok : Bytes → Out Bytes) = .ok [0, 0, 0, 1]) ∧
    d.nonceFile = some nonce1 ∧ NonceLoss nonce1 left ∧
    openEnc toy 80 testKey (nonce1.map (· + 1)) ⟨d.file, left⟩ = some s ∧ s.Shows Store.empty ∧
    (encLeft s false).nonceFile = some (nonce1.map (· + 1)) := by
  have h : ((encLifeRun toy 80 EncDir.fresh (demoEnc.take 1)).map fun p =>
      ((openEnc toy 80 testKey (nonce1.map (· + 1)) p.2).map fun s =>
          decide (s.getAs "b" 0 (Out.ok : Bytes → Out Bytes) = .ok [0, 0, 0, 1]),
        decide (p.2.nonceFile = some nonce1),
        (openEnc toy 80 testKey (nonce1.map (· + 1)) ⟨p.2.file, some []⟩).map fun s =>
          decide (s.kv = [] ∧ (encLeft s false).nonceFile = some (nonce1.map (· + 1))))) =
      some (some true, true, some true) := by decide +kernel
  cases hr : encLifeRun toy 80 EncDir.fresh (demoEnc.take 1) with
  | none => simp [hr] at h
  | some p =>
    rw [hr] at h
    simp only [Option.map_some, Option.some.injEq, Prod.mk.injEq] at h
    obtain ⟨h1, h2, h3⟩ := h
    cases ho1 : openEnc toy 80 testKey (nonce1.map (· + 1)) p.2 with
    | none => simp [ho1] at h1
    | some s1 =>
      cases ho : openEnc toy 80 testKey (nonce1.map (· + 1)) ⟨p.2.file, some []⟩ with
      | none => simp [ho] at h3
      | some s =>
        rw [ho] at h3
        simp only [Option.map_some, Option.some.injEq, decide_eq_true_eq] at h3
        refine ⟨p.1, p.2, some [], s, encLife_of_run _ _ _ _ hr, ⟨s1, ho1, by simpa [ho1] using h1⟩, by simpa using h2,
          .inr ⟨0, rfl⟩, ho, ?_, h3.2⟩
        have hk : decodeKey testKey = some testKeyBytes := by decide +kernel
        rw [openEnc_eq hk] at ho
        exact shows_of_view ho (by rw [h3.1]; exact view_nil)

end Mmkv
