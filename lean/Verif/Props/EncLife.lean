import Verif.Props.Encrypt
import Verif.Props.Abort
import Verif.Props.Power
import Verif.Props.Total
/-!
# The life of any directory, plain or encrypted: C46, C47, C53, C56, C57

What `Props/Durability.lean`, `Props/Abort.lean`, `Props/Power.lean` and `Props/Total.lean` prove of a plain store, of encrypted stores, and of
directories that have been used before.
-/

namespace Mmkv
open Spec Inst
variable {ι : Type}

/-! ### General -/

theorem io_at_rest_any {E : Env ι} {S0 : Store} {K : Nat} {cs : List Mutation} {s : Inst ι}
    (hd : DInv E S0 K cs s) (hidle : s.phase = .idle) (hrest : ∀ o, step E.codecs s (.io o) = none) :
    s.lp.io = .recv ∧ s.lp.chan = [] := by
  have hsd : s.lp.sender = true := by rw [hd.book.sender, hidle]; rfl
  obtain ⟨cb0, _, hinv⟩ := hd.book.inv
  have hst : ∀ o, Looper.ioStep (fun o j cb => execJob (E.codecs s.idx) o j cb) o s.lp = none := by
    intro o
    have := hrest o
    simp only [step] at this
    split at this
    · assumption
    · cases this
  have h := hst idOrder
  unfold Looper.ioStep at h
  cases hio : s.lp.io with
  | recv =>
    refine ⟨rfl, ?_⟩
    cases hch : s.lp.chan with
    | nil => rfl
    | cons x xs => simp only [hio, hch] at h; cases x <;> simp at h
  | swap => simp [hio] at h
  | run =>
    simp only [hio] at h
    split at h
    · cases h
    · split at h <;> cases h
  | exited => have := (hinv.exitedClosed hio).1; rw [hsd] at this; cases this
  | unwinding => exact absurd hio hd.alive.1
  | dead => exact absurd hio hd.alive.2

theorem rest_good {E : Env ι} {S0 : Store} {K : Nat} {cs : List Mutation} {s : Inst ι}
    (hd : DInv E S0 K cs s) (hidle : s.phase = .idle) (hrest : ∀ o, step E.codecs s (.io o) = none) :
    s.lp.cb.removed = false ∧ GoodFile E (E.codecs s.idx) (K + cs.length) s.disk (S0.run cs) := by
  have hio := io_at_rest_any hd hidle hrest
  exact disk_drained hd (by simp [hidle, Phase.clearing]) (drained_at_rest hd hidle hio.1 hio.2)

theorem ending_good {E : Env ι} {sync : Msync} (hsync : sync.Sound) {S0 : Store} {K : Nat} {cs : List Mutation} {s s' : Inst ι}
    {e : Ev ι} {r : Option (Out Unit)} (hd : DInv E S0 K cs s) (hok : e.Ok E) (hroom : E.Room (K + cs.length))
    (hstep : step E.codecs s e = some (s', r)) :
    stepEnding sync E.codecs s e = some .returned ∧ exitEnding sync s = .returned := by
  obtain ⟨hr, hd'⟩ := dinv_step hd hok hroom hstep
  constructor
  · have hnp : r ≠ some .panic := fun hx => by have := hr _ hx; cases this
    cases e with
    | put k t bs => simp [stepEnding, hstep]
    | delete k => simp [stepEnding, hstep]
    | clear => simp [stepEnding, hstep]
    | drop => simp [stepEnding, hstep]
    | api i => simp [stepEnding, hstep]
    | io o =>
      simp only [stepEnding, hstep, Option.map_some]
      split
      · rename_i b dup rest hio hbuf
        unfold writeEnding
        split
        · rfl
        · rename_i w hw
          exfalso
          have := hd'.alive.1
          simp only [step, Looper.ioStep, hio, hbuf, execJob, hw] at hstep
          injection hstep with hstep
          injection hstep with hstep _
          subst hstep
          exact this rfl
      · rfl
  · obtain ⟨_, _, _, content, items, _, _, hw, _, _⟩ := hd.ex
    unfold exitEnding
    rw [dropReturns_valid hsync hw.toValid]
    rfl

/-! ### Plain directories that have been used before -/

theorem plain_session {page : Nat} (h8 : 8 ≤ page) (h32 : page < 2 ^ 32) {xs : List (Session Unit)} {rss : List (List (Out Unit))}
    {d : Dir Unit} (hl : Life plain page Dir.fresh xs rss d) (hfit : ∀ x ∈ xs, ∀ e ∈ x.evs, e.Fits page)
    {s0 s : Inst Unit} {es : List (Ev Unit)} {rs : List (Out Unit)} (hopen : openAt plain () page d.file = some s0)
    (hrun : run plain s0 es = some (s, rs)) (hfit' : ∀ e ∈ es, e.Fits page)
    (hroom : page * (callCount xs + (calls es).length) + 8 < 2 ^ 64) :
    ∃ S, Survives Store.empty (sessionCalls xs) S ∧ s0.Shows S ∧ (∀ r ∈ rs, r = .ok ()) ∧
      DInv (plainEnv page h8 False) S (callCount xs) (calls es) s := by
  have hr1 : page * callCount xs + 8 < 2 ^ 64 := by
    have := Nat.mul_le_mul_left page (Nat.le_add_right (callCount xs) (calls es).length)
    omega
  obtain ⟨_, S, hS, hg⟩ := life_survives (E := plainEnv page h8 False) (K := 0) hl (goodDir_fresh _ 0)
    (fun x hx e he => (hfit x hx e he).ok h32) (by rw [Nat.zero_add]; exact plain_room hr1)
  rw [Nat.zero_add] at hg
  obtain ⟨s1, hs1, hd1, _⟩ := dinv_open (hg () (fun _ _ => rfl))
  have hopen' : openAt plain () page d.file = some s1 := hs1
  rw [hopen] at hopen'
  injection hopen' with hopen'
  subst hopen'
  obtain ⟨hrs, hd⟩ := dinv_run es hd1 (fun e he => (hfit' e he).ok h32)
    (by simpa using (plain_room hroom : (plainEnv page h8 False).Room _)) hrun
  rw [List.nil_append] at hd
  exact ⟨S, hS, shows_of_view hs1 (by simpa [Store.run] using hd1.kvView), hrs, hd⟩

/-- **C46** for a directory with a past: after any number of earlier sessions, closed or killed, in a session on it that has come to rest,
everything is on disk: opening the file, with any page size, shows what the session found plus all its calls. -/
theorem C46_with_past {page page' : Nat} (h8 : 8 ≤ page) (h32 : page < 2 ^ 32) (h8' : 8 ≤ page') {xs : List (Session Unit)}
    {rss : List (List (Out Unit))} {d : Dir Unit} (hl : Life plain page Dir.fresh xs rss d)
    (hfit : ∀ x ∈ xs, ∀ e ∈ x.evs, e.Fits page) {s0 s : Inst Unit} {es : List (Ev Unit)} {rs : List (Out Unit)}
    (hopen : openAt plain () page d.file = some s0) (hrun : run plain s0 es = some (s, rs)) (hfit' : ∀ e ∈ es, e.Fits page)
    (hroom : page * (callCount xs + (calls es).length) + 8 < 2 ^ 64)
    (hidle : s.phase = .idle) (hrest : ∀ o, step plain s (.io o) = none) :
    ∃ S s', Survives Store.empty (sessionCalls xs) S ∧ s0.Shows S ∧ s.Shows (S.run (calls es)) ∧
      openAt plain () page' s.disk = some s' ∧ s'.Shows (S.run (calls es)) := by
  obtain ⟨S, hS, hsh, hrs, hd⟩ := plain_session h8 h32 hl hfit hopen hrun hfit' hroom
  obtain ⟨hnr, hg⟩ := rest_good hd hidle hrest
  obtain ⟨s', hs', hd', _⟩ := dinv_open (GoodFile.repage (h8' := h8') hg : GoodFile (plainEnv page' h8' False) (plain ()) _ _ _)
  refine ⟨S, s', hS, hsh, C01_latest_write_wins hopen hsh hrun hrs hidle, hs', shows_of_view hs' ?_⟩
  simpa [Store.run] using hd'.kvView

/-- **C56** for a directory with a past: no event of a session on it panics or ends the process. -/
theorem C56_with_past_partial {sync : Msync} (hsync : sync.Sound) {page : Nat} (h8 : 8 ≤ page) (h32 : page < 2 ^ 32)
    {xs : List (Session Unit)} {rss : List (List (Out Unit))} {d : Dir Unit} (hl : Life plain page Dir.fresh xs rss d)
    (hfit : ∀ x ∈ xs, ∀ e ∈ x.evs, e.Fits page) {s0 s s' : Inst Unit} {es : List (Ev Unit)} {e : Ev Unit} {rs : List (Out Unit)}
    {r : Option (Out Unit)} (hopen : openAt plain () page d.file = some s0) (hrun : run plain s0 es = some (s, rs))
    (hstep : step plain s e = some (s', r)) (hfit' : ∀ x ∈ es ++ [e], x.Fits page)
    (hroom : page * (callCount xs + (calls es).length) + 8 < 2 ^ 64) :
    stepEnding sync plain s e = some .returned ∧ exitEnding sync s = .returned := by
  obtain ⟨S, _, _, _, hd⟩ := plain_session h8 h32 hl hfit hopen hrun (fun x hx => hfit' x (List.mem_append_left _ hx)) hroom
  exact ending_good (E := plainEnv page h8 False) hsync hd ((hfit' e (by simp)).ok h32) (plain_room hroom) hstep

/-! ### Encrypted directories -/

/-- The data file is good under the key and whatever nonce opening it would use. -/
def EncGood (C : Cipher) (page : Nat) (h8 : 8 ≤ page) (k : Bytes) (K : Nat) (d : EncDir) (S : Store) : Prop :=
  ∀ rand, GoodFile (encEnv C page h8 False) (encrypted C (k, initNonce d.nonceFile rand)) K d.file S

theorem encGood_fresh {C : Cipher} {page : Nat} {h8 : 8 ≤ page} {k : Bytes} {K : Nat} : EncGood C page h8 k K EncDir.fresh Store.empty :=
  fun _ => .empty

theorem openAt_idx {codecs : ι → Codec} {j : ι} {page : Nat} {file : Bytes} {u : Nat} {q : Option Nat} {s1 : Inst ι}
    (ho : openAt codecs j page file u q = some s1) : s1.idx = j := by
  unfold openAt at ho
  split at ho
  · cases ho
  · injection ho with ho; subst ho; rfl

/-- One session on a good encrypted directory, so far. -/
theorem encGood_session {C : Cipher} {page : Nat} {h8 : 8 ≤ page} (h32 : page < 2 ^ 32) {key : String} {k : Bytes}
    (hk : decodeKey key = some k) {K : Nat} {d : EncDir} {S : Store} (hg : EncGood C page h8 k K d S) {rand : Bytes}
    (hrand : rand.length = 11) {s0 s : Inst (Bytes × Bytes)} {es : List (Ev (Bytes × Bytes))} {rs : List (Out Unit)}
    (ho : openEnc C page key rand d = some s0) (hr : run (encrypted C) s0 es = some (s, rs)) (hfit : ∀ e ∈ es, e.EncFits k page)
    (hroom : page * (K + (calls es).length) + 8 < 2 ^ 64) (hctr : K + (calls es).length < 2 ^ 32 - 1) :
    s0.Shows S ∧ (∀ r ∈ rs, r = .ok ()) ∧ DInv (encEnv C page h8 False) S K (calls es) s ∧ s.idx.1 = k ∧ s.idx.2.length = nonceLen := by
  rw [openEnc_eq hk] at ho
  obtain ⟨s1, hs1, hd1, _⟩ := dinv_open (E := encEnv C page h8 False) (i := (k, initNonce d.nonceFile rand)) (hg rand)
  have hs1' : openAt (encrypted C) (k, initNonce d.nonceFile rand) page d.file = some s1 := hs1
  rw [ho] at hs1'
  injection hs1' with hs1'
  subst hs1'
  have hrm : (encEnv C page h8 False).Room (K + ([] : List Mutation).length + (calls es).length) := by
    refine ⟨by simpa [encEnv] using hroom, ?_⟩
    simp only [encEnv, aeadPos, counterMax, List.length_nil]
    omega
  obtain ⟨hrs, hd⟩ := dinv_run es hd1 (fun e he => (hfit e he).ok h32) hrm hr
  rw [List.nil_append] at hd
  have hidx : s.idx.1 = k ∧ s.idx.2.length = nonceLen := by
    apply idx_run (P := fun i => i.1 = k ∧ i.2.length = nonceLen) es _ _ hr
    · rw [openAt_idx ho]
      exact ⟨rfl, initNonce_length hrand⟩
    · intro i hi
      exact hfit _ hi
  exact ⟨shows_of_view ho (by simpa [Store.run] using hd1.kvView), hrs, hd, hidx.1, hidx.2⟩

theorem encGood_left {C : Cipher} {page : Nat} {h8 : 8 ≤ page} {k : Bytes} {K : Nat} {s : Inst (Bytes × Bytes)} {S : Store}
    (hg : GoodDir (encEnv C page h8 False) K s.dir S) (h1 : s.idx.1 = k) (h2 : s.idx.2.length = nonceLen) (half : Bool) :
    EncGood C page h8 k K (encLeft s half) S := by
  intro rand
  have := hg (k, initNonce (encLeft s half).nonceFile rand) (by
    intro j hj
    simp only [dir] at hj
    cases hrm : s.lp.cb.removed with
    | true => simp [hrm] at hj
    | false =>
      simp only [hrm, Bool.false_eq_true, if_false, Option.some.injEq] at hj
      subst hj
      simp only [encLeft, hrm, Bool.false_and, Bool.false_eq_true, if_false, initNonce, h2, if_true]
      rw [← h1])
  exact this

theorem encLife_good {C : Cipher} {page : Nat} {h8 : 8 ≤ page} (h32 : page < 2 ^ 32) {key : String} {k : Bytes}
    (hk : decodeKey key = some k) {xs : List EncSession} {rss : List (List (Out Unit))} {d d' : EncDir}
    (hl : EncLife C page d xs rss d') {K : Nat} {S0 : Store} (hg : EncGood C page h8 k K d S0) (hs : SameKey key k page xs)
    (hroom : page * (K + encCallCount xs) + 8 < 2 ^ 64) (hctr : K + encCallCount xs < 2 ^ 32 - 1) :
    (∀ rs ∈ rss, ∀ r ∈ rs, r = .ok ()) ∧
      ∃ S, Survives S0 (encCalls xs) S ∧ EncGood C page h8 k (K + encCallCount xs) d' S := by
  induction hl generalizing K S0 with
  | nil d => exact ⟨by simp, S0, .nil _, by simpa [encCallCount] using hg⟩
  | @cons d d' x xs s s' rs rss ho hr hc rest ih =>
    have hcnt : encCallCount (x :: xs) = (calls x.evs).length + encCallCount xs := by simp [encCallCount]
    rw [hcnt] at hroom hctr ⊢
    have hkey : x.key = key := hs.key x List.mem_cons_self
    rw [hkey] at ho
    have hr1 : page * (K + (calls x.evs).length) + 8 < 2 ^ 64 := by
      have := Nat.mul_le_mul_left page (show K + (calls x.evs).length ≤ K + ((calls x.evs).length + encCallCount xs) by omega)
      omega
    obtain ⟨_, hrs, hd, hi1, hi2⟩ := encGood_session h32 hk hg (hs.rand x List.mem_cons_self) ho hr (hs.fits x List.mem_cons_self)
      hr1 (by omega)
    obtain ⟨m, hm, hmc, hg'⟩ := goodDir_end hd x.clean hc
    obtain ⟨hrss, S, hS, hgd⟩ := ih (encGood_left hg' hi1 hi2 x.half)
      ⟨fun y hy => hs.key y (List.mem_cons_of_mem _ hy), fun y hy => hs.rand y (List.mem_cons_of_mem _ hy),
        fun y hy => hs.fits y (List.mem_cons_of_mem _ hy)⟩ (by rw [Nat.add_assoc]; exact hroom) (by omega)
    refine ⟨?_, S, .cons m hm hmc hS, by rw [← Nat.add_assoc]; exact hgd⟩
    intro q hq
    rcases List.mem_cons.1 hq with rfl | hq
    · exact hrs
    · exact hrss q hq

theorem openEnc_good {C : Cipher} {page : Nat} {h8 : 8 ≤ page} {key : String} {k : Bytes} (hk : decodeKey key = some k)
    {K : Nat} {d : EncDir} {S : Store} (hg : EncGood C page h8 k K d S) (rand : Bytes) :
    ∃ s, openEnc C page key rand d = some s ∧ s.Shows S := by
  rw [openEnc_eq hk]
  obtain ⟨s, hs, hd, _⟩ := dinv_open (E := encEnv C page h8 False) (i := (k, initNonce d.nonceFile rand)) (hg rand)
  exact ⟨s, hs, shows_of_view hs (by simpa [Store.run] using hd.kvView)⟩

/-- **C46** for an encrypted store: after any number of earlier sessions with the same key, in a session that has come to rest, everything is
on disk: whatever process opens the directory with the key then sees what the session found plus all its calls. -/
theorem C46_encrypted (C : Cipher) {page : Nat} (h8 : 8 ≤ page) (h32 : page < 2 ^ 32) {key : String} {k : Bytes}
    (hk : decodeKey key = some k) {xs : List EncSession} {rss : List (List (Out Unit))} {d : EncDir}
    (hl : EncLife C page EncDir.fresh xs rss d) (hs : SameKey key k page xs) {rand : Bytes} (hrand : rand.length = 11)
    {s0 s : Inst (Bytes × Bytes)} {es : List (Ev (Bytes × Bytes))} {rs : List (Out Unit)}
    (hopen : openEnc C page key rand d = some s0) (hrun : run (encrypted C) s0 es = some (s, rs)) (hfit : ∀ e ∈ es, e.EncFits k page)
    (hroom : page * (encCallCount xs + (calls es).length) + 8 < 2 ^ 64) (hctr : encCallCount xs + (calls es).length < 2 ^ 32 - 1)
    (hidle : s.phase = .idle) (hrest : ∀ o, step (encrypted C) s (.io o) = none) :
    ∃ S, Survives Store.empty (encCalls xs) S ∧ s0.Shows S ∧ s.Shows (S.run (calls es)) ∧
      ∀ rand' half, ∃ s', openEnc C page key rand' (encLeft s half) = some s' ∧ s'.Shows (S.run (calls es)) := by
  have hr1 : page * (0 + encCallCount xs) + 8 < 2 ^ 64 := by
    have := Nat.mul_le_mul_left page (show 0 + encCallCount xs ≤ encCallCount xs + (calls es).length by omega)
    omega
  obtain ⟨_, S, hS, hg⟩ := encLife_good (h8 := h8) h32 hk hl (K := 0) encGood_fresh hs hr1 (by omega)
  rw [Nat.zero_add] at hg
  obtain ⟨hsh, hrs, hd, hi1, hi2⟩ := encGood_session h32 hk hg hrand hopen hrun hfit hroom hctr
  obtain ⟨hnr, hgf⟩ := rest_good hd hidle hrest
  have hopen' := hopen
  rw [openEnc_eq hk] at hopen'
  refine ⟨S, hS, hsh, C01_latest_write_wins hopen' hsh hrun hrs hidle, fun rand' half => openEnc_good (h8 := h8) (K := encCallCount xs + (calls es).length) hk (encGood_left ?_ hi1 hi2 half) rand'⟩
  intro i hi
  have : i = s.idx := hi _ (by simp [dir, hnr])
  subst this
  simpa [dir] using hgf

/-- **C56** for an encrypted store, what is true: in any session on a directory that has only been used with this key, records of at most a
page, no event panics or ends the process, and neither does the destructor of the mapping. -/
theorem C56_encrypted_partial {sync : Msync} (hsync : sync.Sound) (C : Cipher) {page : Nat} (h8 : 8 ≤ page) (h32 : page < 2 ^ 32)
    {key : String} {k : Bytes} (hk : decodeKey key = some k) {xs : List EncSession} {rss : List (List (Out Unit))} {d : EncDir}
    (hl : EncLife C page EncDir.fresh xs rss d) (hs : SameKey key k page xs) {rand : Bytes} (hrand : rand.length = 11)
    {s0 s s' : Inst (Bytes × Bytes)} {es : List (Ev (Bytes × Bytes))} {e : Ev (Bytes × Bytes)} {rs : List (Out Unit)} {r : Option (Out Unit)}
    (hopen : openEnc C page key rand d = some s0) (hrun : run (encrypted C) s0 es = some (s, rs))
    (hstep : step (encrypted C) s e = some (s', r)) (hfit : ∀ x ∈ es ++ [e], x.EncFits k page)
    (hroom : page * (encCallCount xs + (calls es).length) + 8 < 2 ^ 64) (hctr : encCallCount xs + (calls es).length < 2 ^ 32 - 1) :
    stepEnding sync (encrypted C) s e = some .returned ∧ exitEnding sync s = .returned := by
  have hr1 : page * (0 + encCallCount xs) + 8 < 2 ^ 64 := by
    have := Nat.mul_le_mul_left page (show 0 + encCallCount xs ≤ encCallCount xs + (calls es).length by omega)
    omega
  obtain ⟨_, S, hS, hg⟩ := encLife_good (h8 := h8) h32 hk hl (K := 0) encGood_fresh hs hr1 (by omega)
  rw [Nat.zero_add] at hg
  obtain ⟨_, _, hd, _⟩ := encGood_session h32 hk hg hrand hopen hrun (fun x hx => hfit x (List.mem_append_left _ hx)) hroom hctr
  exact ending_good (E := encEnv C page h8 False) hsync hd ((hfit e (by simp)).ok h32)
    ⟨hroom, by simpa [encEnv, aeadPos, counterMax] using hctr⟩ hstep

/-- **C53** for an encrypted directory: whatever sessions of typed calls it has been through with this key, closed or killed between two
background writes, it opens and `get` does not panic, then or after further typed calls. -/
theorem C53_encrypted_partial (C : Cipher) {page : Nat} (h8 : 8 ≤ page) (h32 : page < 2 ^ 32) {key : String} {k : Bytes}
    (hk : decodeKey key = some k) {xs : List EncSession} {rss : List (List (Out Unit))} {d : EncDir}
    (hl : EncLife C page EncDir.fresh xs rss d) (hs : SameKey key k page xs) (hty : ∀ x ∈ xs, ∀ e ∈ x.evs, e.Typed)
    (hroom : page * encCallCount xs + 8 < 2 ^ 64) (hctr : encCallCount xs < 2 ^ 32 - 1) (rand : Bytes) :
    ∃ s0, openEnc C page key rand d = some s0 ∧ ∀ es s rs, run (encrypted C) s0 es = some (s, rs) → (∀ r ∈ rs, r = .ok ()) →
      s.phase = .idle → (∀ e ∈ es, e.Typed) → ∀ k t, s.get k t ≠ .panic := by
  obtain ⟨_, S, hS, hg⟩ := encLife_good (h8 := h8) h32 hk hl (K := 0) encGood_fresh hs (by rw [Nat.zero_add]; exact hroom) (by omega)
  obtain ⟨s0, ho, hsh⟩ := openEnc_good hk hg rand
  have ho' := ho
  rw [openEnc_eq hk] at ho'
  have hST := typed_survives hS (fun k e h => by simp [Store.empty] at h) (by
    intro x hx k e hm
    simp only [encCalls, List.mem_map] at hx
    obtain ⟨y, hy, rfl⟩ := hx
    exact typed_calls (hty y hy) k e hm)
  exact ⟨s0, ho, fun es s rs h1 h2 h3 h4 k t => C53_partial ho' hsh hST h1 h2 h3 h4 k t⟩

/-! ### C47 -/

theorem GoodFile.repageEnc {C : Cipher} {p p' q : Nat} {h8 : 8 ≤ p} {h8' : 8 ≤ p'} {c : Codec} {K : Nat} {file : Bytes} {S : Store} (hq : 0 < q)
    (hp : p ≤ q * p') (h : GoodFile (encEnv C p h8 False) c K file S) : GoodFile (encEnv C p' h8' False) c (q * K) file S := by
  cases h with
  | empty => exact .empty
  | held hh hf hb hsz hk hs hn =>
    have h1 : 1 * K ≤ q * K := Nat.mul_le_mul_right _ hq
    refine .held hh hf hb ?_ (by omega) ?_ hn
    · rcases hsz with h | h
      · exact absurd h.1 id
      · exact .inr h
    · have h2 : p * K ≤ (q * p') * K := Nat.mul_le_mul_right _ hp
      simp only [encEnv] at hs ⊢
      have h3 : q * p' * K = p' * (q * K) := by rw [Nat.mul_comm q p', Nat.mul_assoc]
      omega

/-- **C47** for an encrypted directory: used with one page size and then with another, at most `q` times smaller (`q` is 1 if it is not
smaller at all), it keeps everything; it opens with any page size. -/
theorem C47_encrypted (C : Cipher) {p p' p'' q : Nat} (h8 : 8 ≤ p) (h32 : p < 2 ^ 32) (h8' : 8 ≤ p') (h32' : p' < 2 ^ 32)
    (h8'' : 8 ≤ p'') (hq : 0 < q) (hp : p ≤ q * p') {key : String} {k : Bytes} (hk : decodeKey key = some k)
    {xs ys : List EncSession} {rss rss' : List (List (Out Unit))} {d d' : EncDir}
    (hl : EncLife C p EncDir.fresh xs rss d) (hl' : EncLife C p' d ys rss' d') (hs : SameKey key k p xs) (hs' : SameKey key k p' ys)
    (hroom : p * encCallCount xs + 8 < 2 ^ 64) (hroom' : p' * (q * encCallCount xs + encCallCount ys) + 8 < 2 ^ 64)
    (hctr : q * encCallCount xs + encCallCount ys < 2 ^ 32 - 1) :
    (∀ rs ∈ rss ++ rss', ∀ r ∈ rs, r = .ok ()) ∧
    ∃ S, Survives Store.empty (encCalls xs ++ encCalls ys) S ∧
      (∀ rand, ∃ s, openEnc C p'' key rand d' = some s ∧ s.Shows S) ∧
      ((∀ x ∈ xs ++ ys, x.clean = true) → S = Store.empty.run ((xs ++ ys).map fun x => calls x.evs).flatten) := by
  have hle : 1 * encCallCount xs ≤ q * encCallCount xs := Nat.mul_le_mul_right _ hq
  obtain ⟨hr, S1, hS1, hg1⟩ := encLife_good (h8 := h8) h32 hk hl (K := 0) encGood_fresh hs (by rw [Nat.zero_add]; exact hroom) (by omega)
  rw [Nat.zero_add] at hg1
  have hg1' : EncGood C p' h8' k (q * encCallCount xs) d S1 := fun rand => (hg1 rand).repageEnc hq hp
  obtain ⟨hr', S2, hS2, hg2⟩ := encLife_good h32' hk hl' hg1' hs' hroom' hctr
  have hg3 : EncGood C p'' h8'' k (p' * (q * encCallCount xs + encCallCount ys)) d' S2 :=
    fun rand => (hg2 rand).repageEnc (by omega) (by
      have : p' * 1 ≤ p' * p'' := Nat.mul_le_mul_left _ (by omega)
      omega)
  have hS := hS1.append hS2
  refine ⟨?_, S2, hS, openEnc_good hk hg3, ?_⟩
  · intro rs hrs
    rcases List.mem_append.1 hrs with h | h
    · exact hr rs h
    · exact hr' rs h
  · intro hcl
    rw [survives_clean hS]
    · simp [encCalls, Function.comp_def]
    · intro z hz
      unfold encCalls at hz
      rw [← List.map_append] at hz
      obtain ⟨x, hx, rfl⟩ := List.mem_map.1 hz
      exact hcl x hx

/-! ### C57 -/

/-- Encrypted sessions one after the other, each closed by dropping the last handle, after each of which the power may fail and spare the
nonce file. -/
inductive EncPowerLife (C : Cipher) (page : Nat) : EncDir → List EncSession → EncDir → Prop
  | nil (d) : EncPowerLife C page d [] d
  | cons {d d' x xs s s' rs f} (ho : openEnc C page x.key x.rand d = some s)
      (hr : Inst.run (encrypted C) s x.evs = some (s', rs)) (hc : s'.closedOk) (hloss : ClosedLoss s'.disk f)
      (rest : EncPowerLife C page ⟨f, (encLeft s' false).nonceFile⟩ xs d') : EncPowerLife C page d (x :: xs) d'

/-- **C57** for encrypted stores, what is true: a power failure after a clean close that spares the nonce file loses nothing.  Missing from
C57: the nonce file, which the code never syncs (`C57_refuted_encrypted`), and a power failure while the store is open. -/
theorem C57_encrypted_partial (C : Cipher) {page : Nat} (h8 : 8 ≤ page) (h32 : page < 2 ^ 32) {key : String} {k : Bytes}
    (hk : decodeKey key = some k) {xs : List EncSession} {d : EncDir} (hl : EncPowerLife C page EncDir.fresh xs d)
    (hs : SameKey key k page xs) (hroom : page * encCallCount xs + 8 < 2 ^ 64) (hctr : encCallCount xs < 2 ^ 32 - 1) (rand : Bytes) :
    ∃ s, openEnc C page key rand d = some s ∧ s.Shows (Store.empty.run (xs.map fun x => calls x.evs).flatten) := by
  have key : ∀ {d0 : EncDir} {K : Nat} {S0 : Store}, EncPowerLife C page d0 xs d → EncGood C page h8 k K d0 S0 → 
      page * (K + encCallCount xs) + 8 < 2 ^ 64 → K + encCallCount xs < 2 ^ 32 - 1 →
      EncGood C page h8 k (K + encCallCount xs) d (S0.run (xs.map fun x => calls x.evs).flatten) := by
    clear hl hroom hctr
    intro d0 K S0 hl hg hroom hctr
    induction hl generalizing K S0 with
    | nil d => simpa [encCallCount, Store.run] using hg
    | @cons d d' x xs s s' rs f ho hr hc hloss rest ih =>
      have hcnt : encCallCount (x :: xs) = (calls x.evs).length + encCallCount xs := by simp [encCallCount]
      rw [hcnt] at hroom hctr ⊢
      have hkey : x.key = key := hs.key x List.mem_cons_self
      rw [hkey] at ho
      have hr1 : page * (K + (calls x.evs).length) + 8 < 2 ^ 64 := by
        have := Nat.mul_le_mul_left page (show K + (calls x.evs).length ≤ K + ((calls x.evs).length + encCallCount xs) by omega)
        omega
      obtain ⟨_, _, hd, hi1, hi2⟩ := encGood_session h32 hk hg (hs.rand x List.mem_cons_self) ho hr (hs.fits x List.mem_cons_self)
        hr1 (by omega)
      obtain ⟨m, hm, hmc, hg'⟩ := goodDir_end hd true (fun _ => hc)
      rw [hmc rfl, List.take_length] at hg'
      have hg2 : EncGood C page h8 k (K + (calls x.evs).length) ⟨f, (encLeft s' false).nonceFile⟩ (S0.run (calls x.evs)) :=
        fun rand => goodFile_loss (encGood_left hg' hi1 hi2 false rand) hloss
      have := ih ⟨fun y hy => hs.key y (List.mem_cons_of_mem _ hy), fun y hy => hs.rand y (List.mem_cons_of_mem _ hy),
        fun y hy => hs.fits y (List.mem_cons_of_mem _ hy)⟩ hg2 (by rw [Nat.add_assoc]; exact hroom) (by omega)
      rw [← Nat.add_assoc]
      simpa [run_append] using this
  have hg := key hl (K := 0) encGood_fresh (by rw [Nat.zero_add]; exact hroom) (by omega)
  exact openEnc_good hk hg rand

/-! ### Cases that meet the hypotheses -/

/-- At rest: nothing left for the background thread. -/
theorem no_io_at_rest {ι : Type} {codecs : ι → Codec} {s : Inst ι} (h1 : s.lp.io = .recv) (h2 : s.lp.chan = []) (h3 : s.lp.sender = true) (o : Order) :
    step codecs s (.io o) = none := by
  simp [step, Looper.ioStep, h1, h2, h3]

/-- The hypotheses of `C46_encrypted` and `C56_encrypted_partial` are met: after the two sessions of `demoEnc`, the second of which is killed
inside `clear_data`, a third session writes one key and comes to rest. -/
example : ∃ rss d s0 s rs, EncLife toy 80 EncDir.fresh demoEnc rss d ∧ openEnc toy 80 testKey nonce1 d = some s0 ∧
    run (encrypted toy) s0 (encPut (testKeyBytes, nonce1) "z" 0 [0, 0, 0, 9]) = some (s, rs) ∧ s.phase = .idle ∧
    (∀ o, step (encrypted toy) s (.io o) = none) ∧ calls (encPut (testKeyBytes, nonce1) "z" 0 [0, 0, 0, 9]) ≠ [] ∧
    80 * (encCallCount demoEnc + 1) + 8 < 2 ^ 64 := by
  have h : ((encLifeRun toy 80 EncDir.fresh demoEnc).bind fun p => (openEnc toy 80 testKey nonce1 p.2).bind fun s0 =>
      (run (encrypted toy) s0 (encPut (testKeyBytes, nonce1) "z" 0 [0, 0, 0, 9])).map fun q =>
        decide (q.1.phase = .idle ∧ q.1.lp.io = .recv ∧ q.1.lp.chan = [] ∧ q.1.lp.sender = true)) = some true := by decide +kernel
  cases hr : encLifeRun toy 80 EncDir.fresh demoEnc with
  | none => simp [hr] at h
  | some p =>
    rw [hr, Option.bind_some] at h
    cases ho : openEnc toy 80 testKey nonce1 p.2 with
    | none => simp [ho] at h
    | some s0 =>
      rw [ho, Option.bind_some] at h
      cases hrun : run (encrypted toy) s0 (encPut (testKeyBytes, nonce1) "z" 0 [0, 0, 0, 9]) with
      | none => rw [hrun] at h; cases h
      | some q =>
        rw [hrun, Option.map_some, Option.some.injEq] at h
        obtain ⟨h1, h2, h3, h4⟩ := of_decide_eq_true h
        exact ⟨_, p.2, s0, q.1, q.2, encLife_of_run _ _ _ _ hr, ho, hrun, h1, no_io_at_rest h2 h3 h4, by simp [encPut, calls, Ev.call?], by decide⟩

/-- The hypotheses of `C46_with_past` and `C56_with_past_partial` are met after the two sessions of `demoSessions`. -/
example : ∃ rss d s0 s rs, Life plain 64 Dir.fresh demoSessions rss d ∧ openAt plain () 64 d.file = some s0 ∧
    run plain s0 (fullPut "z" 0 [0, 0, 0, 9]) = some (s, rs) ∧ s.phase = .idle ∧ (∀ o, step plain s (.io o) = none) ∧
    64 * (callCount demoSessions + 1) + 8 < 2 ^ 64 := by
  have h : ((lifeRun 64 [] demoSessions).bind fun p => (openAt plain () 64 p.2).bind fun s0 =>
      (run plain s0 (fullPut "z" 0 [0, 0, 0, 9])).map fun q =>
        decide (q.1.phase = .idle ∧ q.1.lp.io = .recv ∧ q.1.lp.chan = [] ∧ q.1.lp.sender = true)) = some true := by decide +kernel
  cases hr : lifeRun 64 [] demoSessions with
  | none => simp [hr] at h
  | some p =>
    rw [hr, Option.bind_some] at h
    obtain ⟨d', hl, hd⟩ := life_of_lifeRun demoSessions Dir.fresh p.1 p.2 hr
    cases ho : openAt plain () 64 p.2 with
    | none => simp [ho] at h
    | some s0 =>
      rw [ho, Option.bind_some] at h
      cases hrun : run plain s0 (fullPut "z" 0 [0, 0, 0, 9]) with
      | none => rw [hrun] at h; cases h
      | some q =>
        rw [hrun, Option.map_some, Option.some.injEq] at h
        obtain ⟨h1, h2, h3, h4⟩ := of_decide_eq_true h
        exact ⟨_, d', s0, q.1, q.2, hl, by rw [hd]; exact ho, hrun, h1, no_io_at_rest h2 h3 h4, by decide⟩

/-- The hypotheses of `C47_encrypted` are met: the first session of `demoEnc` with pages of 80 bytes, then the second with pages of 100,
which are not smaller. -/
example : ∃ rss d rss' d', EncLife toy 80 EncDir.fresh (demoEnc.take 1) rss d ∧ EncLife toy 100 d (demoEnc.drop 1) rss' d' ∧
    80 * encCallCount (demoEnc.take 1) + 8 < 2 ^ 64 ∧ 100 * (1 * encCallCount (demoEnc.take 1) + encCallCount (demoEnc.drop 1)) + 8 < 2 ^ 64 := by
  have h : ((encLifeRun toy 80 EncDir.fresh (demoEnc.take 1)).bind fun p => (encLifeRun toy 100 p.2 (demoEnc.drop 1)).map fun _ => true) =
      some true := by decide +kernel
  cases hr : encLifeRun toy 80 EncDir.fresh (demoEnc.take 1) with
  | none => simp [hr] at h
  | some p =>
    rw [hr, Option.bind_some] at h
    cases hr' : encLifeRun toy 100 p.2 (demoEnc.drop 1) with
    | none => rw [hr'] at h; cases h
    | some q => exact ⟨_, p.2, _, q.2, encLife_of_run _ _ _ _ hr, encLife_of_run _ _ _ _ hr', by decide, by decide⟩

/-- The hypothesis of `C57_encrypted_partial` is met: after the first session of `demoEnc` the failure fills the end of the file with ones. -/
example : ∃ d, EncPowerLife toy 80 EncDir.fresh (demoEnc.take 1) d ∧ d.file.getLast? = some 255 := by
  have h : (match openEnc toy 80 testKey nonce1 EncDir.fresh with
    | none => false
    | some s0 => match run (encrypted toy) s0 demoEnc[0].evs with
      | none => false
      | some (s, _) => decide (s.phase = .closed ∧ s.lp.io = .exited ∧ 0 < s.disk.length ∧
          (s.disk.take (s.disk.length - 1) ++ [255]).take (beVal (s.disk.take 8) + 8) = s.disk.take (beVal (s.disk.take 8) + 8))) = true := by
    decide +kernel
  split at h
  · cases h
  rename_i s0 hs0
  split at h
  · cases h
  rename_i s rs hr
  simp only [decide_eq_true_eq] at h
  obtain ⟨h1, h2, h3, h4⟩ := h
  refine ⟨⟨s.disk.take (s.disk.length - 1) ++ [255], (encLeft s false).nonceFile⟩, ?_, by simp⟩
  exact .cons (x := demoEnc[0]) hs0 hr ⟨h1, h2⟩ ⟨by simp; omega, h4⟩ (.nil _)

end Mmkv
