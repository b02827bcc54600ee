import Verif.Lemmas.Latency
import Verif.Props.Encrypt
/-!
# How long until a write is in the file: C67

A `put` or `delete` returns before its record is in the file.  How many steps of the background thread later is it
there?  A step is one of: receive a signal, take the queue, apply one record (or notice that none is left).
-/

namespace Mmkv
open Spec Inst
variable {ι : Type}

/-- Mutations whose call has handed them over and which the background thread has not begun to apply. -/
def Inst.waiting (s : Inst ι) : Nat := s.lp.buf.length + s.lp.queue.length

theorem dat_open {E : Env ι} {i : ι} {K : Nat} {file : Bytes} {S : Store} {s : Inst ι}
    (h : GoodFile E (E.codecs i) K file S) (ho : openAt E.codecs i E.page file = some s) : DInv E S K [] s := by
  obtain ⟨s1, hs1, hd, _⟩ := dinv_open h
  rw [ho] at hs1
  injection hs1 with hs1
  subst hs1
  exact hd

theorem waiting_le_calls {E : Env ι} {S0 : Store} {K : Nat} {cs : List Mutation} {s : Inst ι} (h : DInv E S0 K cs s) :
    s.waiting ≤ cs.length := by
  obtain ⟨pre, post, K0, content, items, hcs, htr, _⟩ := h.ex
  obtain ⟨cb0, _, hinv⟩ := h.book.inv
  have h1 := congrArg List.length hinv.split
  have h2 := htr.length_le
  simp only [List.length_append, List.length_map, h.book.late, List.length_nil, jobs] at h1 h2
  rw [hcs, List.length_append]
  unfold waiting
  omega

theorem due_idle {E : Env ι} {S0 : Store} {K : Nat} {cs : List Mutation} {s : Inst ι} (h : DInv E S0 K cs s)
    (hidle : s.phase = .idle) : Looper.Due s.lp.pushed.length s.lp (s.waiting + 3) := by
  obtain ⟨cb0, _, hinv⟩ := h.book.inv
  exact Looper.due_start hinv (by rw [h.book.owed, hidle]; rfl) h.book.late h.alive

/-- The general form, for any codec whose records round-trip. -/
theorem latency {E : Env ι} {S0 : Store} {K : Nat} {i0 i : ι} {file : Bytes} {s0 s1 s2 : Inst ι} {es1 es2 : List (Ev ι)}
    {rs1 rs2 : List (Out Unit)} (hg : GoodFile E (E.codecs i0) K file S0)
    (hopen : openAt E.codecs i0 E.page file = some s0) (hr1 : run E.codecs s0 es1 = some (s1, rs1))
    (hidle : s1.phase = .idle) (hr2 : run E.codecs s1 es2 = some (s2, rs2)) (hok1 : ∀ e ∈ es1, e.Ok E)
    (hok2 : ∀ e ∈ es2, e.Ok E) (hroom : E.Room (K + (calls es1).length + (calls es2).length))
    (hn : s1.waiting + 3 ≤ es2.countP Ev.isIo) (hi : s2.lp.cb.removed = false → i = s2.idx) :
    ∃ m, (calls es1).length ≤ m ∧ m ≤ (calls es1 ++ calls es2).length ∧
      ∃ s', openAt E.codecs i E.page s2.disk = some s' ∧ s'.Shows (S0.run ((calls es1 ++ calls es2).take m)) := by
  have hne : Nonempty ι := ⟨s0.idx⟩
  obtain ⟨_, hd1⟩ := dinv_run es1 (dat_open hg hopen) hok1
    (by simp only [List.length_nil, Nat.add_zero]; exact hroom.mono (by omega)) hr1
  rw [List.nil_append] at hd1
  obtain ⟨pre, hat⟩ := hd1.dat
  obtain ⟨post, K0, content, items, hcs, htr, _⟩ := hat.ex
  have hj : s1.jobs.map Job.mutation = s1.lp.pushed.map Job.mutation := by simp [jobs, hidle, Phase.inflight]
  rw [hj] at htr
  rw [hcs] at hat hroom ⊢
  have hdue := due_idle hd1 hidle
  obtain ⟨m, h1, h2, h3⟩ := late_run (b := []) es2 (by rw [List.append_nil]; exact hat) htr (by simpa using hdue) hok2 hn
    (by rw [List.append_nil]; exact hroom) hr2 i hi
  rw [List.append_nil] at h2 h3
  obtain ⟨s', hs', hd', _⟩ := dinv_open h3
  exact ⟨m, h1, h2, s', hs', shows_of_view hs' (by simpa [Store.run] using hd'.kvView)⟩

/-- **C67.** After any earlier sessions on the directory, open the store and make any calls; let all of them have returned
and `w` of them be still waiting for the background thread.  Whatever calls are made from then on, once the background
thread has made `w + 3` steps, all the calls made before are in the file: a process killed at that point (or later)
leaves a directory that opens showing all of them, followed by some first part of the later calls. -/
theorem C67_bounded_latency {page : Nat} (h8 : 8 ≤ page) (h32 : page < 2 ^ 32) {xs : List (Session Unit)}
    {rss : List (List (Out Unit))} {d : Dir Unit} (hl : Life plain page Dir.fresh xs rss d)
    (hfit : ∀ x ∈ xs, ∀ e ∈ x.evs, e.Fits page) {s0 s1 s2 : Inst Unit} {S0 : Store} {es1 es2 : List (Ev Unit)}
    {rs1 rs2 : List (Out Unit)} (hopen : openAt plain () page d.file = some s0) (h0 : s0.Shows S0)
    (hr1 : run plain s0 es1 = some (s1, rs1)) (hidle : s1.phase = .idle) (hr2 : run plain s1 es2 = some (s2, rs2))
    (hfit1 : ∀ e ∈ es1, e.Fits page) (hfit2 : ∀ e ∈ es2, e.Fits page)
    (hroom : page * (callCount xs + (calls es1).length + (calls es2).length) + 8 < 2 ^ 64)
    (hn : s1.waiting + 3 ≤ es2.countP Ev.isIo) :
    ∃ m, (calls es1).length ≤ m ∧ m ≤ (calls es1 ++ calls es2).length ∧
      ∃ s', openAt plain () page s2.disk = some s' ∧ s'.Shows (S0.run ((calls es1 ++ calls es2).take m)) := by
  have hr : (plainEnv page h8 False).Room (callCount xs + (calls es1).length + (calls es2).length) := plain_room hroom
  obtain ⟨_, S, _, hg⟩ := life_survives (E := plainEnv page h8 False) (K := 0) hl (goodDir_fresh _ 0)
    (fun x hx e he => (hfit x hx e he).ok h32) (by rw [Nat.zero_add]; exact hr.mono (by omega))
  have hg' := hg () (fun _ _ => rfl)
  rw [Nat.zero_add] at hg'
  have hS : S0 = S := by
    have h1 := (shows_open hopen).1 h0
    have h2 := (dat_open hg' hopen).kvView
    rw [← h1, h2]; rfl
  subst hS
  exact latency hg' hopen hr1 hidle hr2 (fun e he => (hfit1 e he).ok h32) (fun e he => (hfit2 e he).ok h32) hr hn
    (fun _ => rfl)

/-- **C67**: the number of waiting mutations is at most the number of calls made, so the bound is in terms of the calls. -/
theorem C67_waiting_bound {page : Nat} (h8 : 8 ≤ page) (h32 : page < 2 ^ 32) {s0 s : Inst Unit} {es : List (Ev Unit)}
    {rs : List (Out Unit)} (hopen : openAt plain () page [] = some s0) (hrun : run plain s0 es = some (s, rs))
    (hfit : ∀ e ∈ es, e.Fits page) (hroom : page * (calls es).length + 8 < 2 ^ 64) : s.waiting ≤ (calls es).length := by
  obtain ⟨_, hd⟩ := dinv_run es (dat_open (GoodFile.empty (E := plainEnv page h8 False) (c := plain ()) (K := 0)) hopen)
    (fun e he => (hfit e he).ok h32) (by simpa using (plain_room hroom : (plainEnv page h8 False).Room _)) hrun
  simpa using waiting_le_calls hd

/-- **C67**, no lost wake-up: while anything is waiting and no call is under way, the background thread can make a step
(so it makes one as soon as it is scheduled), whatever order a hash map it reads yields. -/
theorem C67_never_stuck {page : Nat} (h8 : 8 ≤ page) (h32 : page < 2 ^ 32) {s0 s : Inst Unit} {es : List (Ev Unit)}
    {rs : List (Out Unit)} (hopen : openAt plain () page [] = some s0) (hrun : run plain s0 es = some (s, rs))
    (hfit : ∀ e ∈ es, e.Fits page) (hroom : page * (calls es).length + 8 < 2 ^ 64) (hidle : s.phase = .idle)
    (hw : 0 < s.waiting) (o : Order) : (step plain s (.io o)).isSome := by
  obtain ⟨_, hd⟩ := dinv_run es (dat_open (GoodFile.empty (E := plainEnv page h8 False) (c := plain ()) (K := 0)) hopen)
    (fun e he => (hfit e he).ok h32) (by simpa using (plain_room hroom : (plainEnv page h8 False).Room _)) hrun
  have hdue := due_idle hd hidle
  have hlt : s.lp.ran.length < s.lp.pushed.length := by
    obtain ⟨cb0, _, hinv⟩ := hd.book.inv
    have h1 := congrArg List.length hinv.split
    simp only [List.length_append, List.length_map, hd.book.late, List.length_nil] at h1
    unfold waiting at hw
    omega
  have := Looper.due_enabled (exec := fun o j cb => execJob (plain s.idx) o j cb) o hdue hlt
  obtain ⟨lp, hlp⟩ := Option.isSome_iff_exists.1 this
  simp only [step]
  rw [hlp]
  rfl

/-- **C67** for the encrypted store: one session on a fresh directory with any key and nonce. -/
theorem C67_encrypted (C : Cipher) {page : Nat} (h8 : 8 ≤ page) (h32 : page < 2 ^ 32) {k nonce : Bytes}
    {s0 s1 s2 : Inst (Bytes × Bytes)} {es1 es2 : List (Ev (Bytes × Bytes))} {rs1 rs2 : List (Out Unit)}
    (hopen : openAt (encrypted C) (k, nonce) page [] = some s0)
    (hr1 : run (encrypted C) s0 es1 = some (s1, rs1)) (hidle : s1.phase = .idle)
    (hr2 : run (encrypted C) s1 es2 = some (s2, rs2))
    (hfit1 : ∀ e ∈ es1, e.EncFits k page) (hfit2 : ∀ e ∈ es2, e.EncFits k page)
    (hroom : page * ((calls es1).length + (calls es2).length) + 8 < 2 ^ 64)
    (hctr : (calls es1).length + (calls es2).length < 2 ^ 32 - 1)
    (hn : s1.waiting + 3 ≤ es2.countP Ev.isIo) {i : Bytes × Bytes} (hi : s2.lp.cb.removed = false → i = s2.idx) :
    ∃ m, (calls es1).length ≤ m ∧ m ≤ (calls es1 ++ calls es2).length ∧
      ∃ s', openAt (encrypted C) i page s2.disk = some s' ∧
        s'.Shows (Store.empty.run ((calls es1 ++ calls es2).take m)) :=
  latency (E := encEnv C page h8 False) (K := 0) .empty hopen hr1 hidle hr2 (fun e he => (hfit1 e he).ok h32)
    (fun e he => (hfit2 e he).ok h32)
    ⟨by simpa [encEnv] using hroom, by simpa [encEnv, aeadPos, counterMax] using hctr⟩ hn hi

/-- Two puts whose records the thread has not begun to apply; then five steps of the thread while another put comes in. -/
def latencyEvs1 : List (Ev Unit) := [.put "a" 0 [0, 0, 0, 1], .api (), .api (), .put "b" 2 [1], .api (), .api ()]
def latencyEvs2 : List (Ev Unit) :=
  [.io idOrder, .put "c" 2 [0], .io idOrder, .api (), .api (), .io idOrder, .io idOrder, .io idOrder, .delete "a", .api (), .api ()]

/-- Non-vacuity: the two puts are waiting, the thread makes five steps meanwhile, and the killed process leaves them both,
and neither the third nor the deletion (here `m = 2`). -/
example : ∃ s0 s1 s2 rs1 rs2, openAt plain () 64 [] = some s0 ∧ run plain s0 latencyEvs1 = some (s1, rs1) ∧
    run plain s1 latencyEvs2 = some (s2, rs2) ∧ s1.phase = .idle ∧ s1.waiting = 2 ∧
    latencyEvs2.countP Ev.isIo = 5 ∧ s2.waiting = 2 ∧ rs2 = [.ok (), .ok ()] := by
  cases h0 : openAt plain () 64 [] with
  | none => exact absurd h0 (by decide +kernel)
  | some s0 =>
    have h : passes (fresh64 latencyEvs1) (fun s1 _ => decide (s1.phase = .idle ∧ s1.waiting = 2) &&
        passes (run plain s1 latencyEvs2) (fun s2 rs2 => decide (s2.waiting = 2 ∧ rs2 = [.ok (), .ok ()]))) = true := by
      decide +kernel
    obtain ⟨s1, rs1, h1, h2⟩ := exists_of_passes h
    simp only [Bool.and_eq_true, decide_eq_true_eq] at h2
    obtain ⟨s2, rs2, h3, h4⟩ := exists_of_passes h2.2
    unfold fresh64 at h1
    rw [h0] at h1
    simp only [decide_eq_true_eq] at h4
    exact ⟨s0, s1, s2, rs1, rs2, rfl, h1, h3, h2.1.1, h2.1.2, by decide, h4.1, h4.2⟩

/-- The bound is sharp: with the thread about to notice that its buffer is empty, one waiting put and three steps of the
thread, the put is not in the file (a reader finds only the first record); a fourth step puts it there. -/
example :
    passes (fresh64 [.put "a" 2 [1], .api (), .api (), .io idOrder, .io idOrder, .io idOrder, .put "b" 2 [1], .api (), .api ()])
      (fun s1 _ => s1.waiting == 1 && s1.phase == .idle &&
        passes (run plain s1 [.io idOrder, .io idOrder, .io idOrder]) (fun s2 _ =>
          (openAt plain () 64 s2.disk).any (fun s => (s.kv.get "b").isNone && (s.kv.get "a").isSome) &&
          passes (run plain s2 [.io idOrder]) (fun s3 _ =>
            (openAt plain () 64 s3.disk).any (fun s => (s.kv.get "b").isSome)))) = true := by
  decide +kernel

end Mmkv
