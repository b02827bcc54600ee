import Verif.Model.Encrypt
import Verif.Props.Durability
/-!
# Encrypted stores: C23, C24, C25

The cipher is abstract (`Cipher`, Verif/Model/Codec.lean): decrypting under the same key, nonce and counter inverts
encrypting, and a ciphertext is eight bytes longer than its plaintext.
-/

namespace Mmkv
open Spec Inst

/-! ### C23 -/

/-- Bytes a put (or delete) occupies in the encrypted file: four bytes of length, the protobuf message, eight bytes of
tag (src/core/encrypt.rs:133-140). -/
def encRecordSize (key : String) (token : BitVec 32) (bytes : Bytes) : Nat := 4 + (kvToBytes ⟨key, token, bytes⟩).length + 8

/-- Each record fits in one page, a `HashMap` yields each of its values once, and a handle that re-creates the store in
`clear_data` has the key `k` (and `OsRng` yields as many bytes as asked for). -/
def Ev.EncFits (k : Bytes) (page : Nat) : Ev (Bytes × Bytes) → Prop
  | .put key t bs => encRecordSize key t bs ≤ page
  | .delete key => encRecordSize key deletedToken [] ≤ page
  | .io o => ∀ l, (o l).Perm l
  | .api i => i.1 = k ∧ i.2.length = nonceLen
  | _ => True

/-- The encrypted store as an instance of the general environment. -/
def encEnv (C : Cipher) (page : Nat) (h8 : 8 ≤ page) (dirty : Prop) : Env (Bytes × Bytes) :=
  ⟨encrypted C, aeadOk, aeadPos, aeadLen, page, fun _ => aead_lawful _, h8, dirty⟩

theorem Ev.EncFits.ok {C : Cipher} {k : Bytes} {page : Nat} {h8 : 8 ≤ page} {dirty : Prop} (hp : page < 2 ^ 32)
    {e : Ev (Bytes × Bytes)} (h : e.EncFits k page) : e.Ok (encEnv C page h8 dirty) := by
  cases e with
  | put key t bs =>
    simp only [Ev.EncFits, encRecordSize] at h
    simp only [Ev.Ok, encEnv, aeadOk, aeadLen, Buffer.ofRaw]
    omega
  | delete key =>
    simp only [Ev.EncFits, encRecordSize] at h
    simp only [Ev.Ok, encEnv, aeadOk, aeadLen, Buffer.deleted]
    omega
  | io o => exact h
  | clear => trivial
  | api i => trivial
  | drop => trivial

theorem idx_step {ι : Type} {codecs : ι → Codec} {P : ι → Prop} {s s' : Inst ι} {e : Ev ι} {r : Option (Out Unit)}
    (h : P s.idx) (he : ∀ i, e = .api i → P i) (hs : step codecs s e = some (s', r)) : P s'.idx := by
  cases e with
  | api i =>
    simp only [step] at hs
    cases hp : s.phase <;> simp only [hp] at hs
    case clrOpen =>
      have hi : P (if s.lp.cb.removed then i else s.idx) := by
        split
        · exact he i rfl
        · exact h
      have hidx : ∀ {j : ι} {page : Nat} {file : Bytes} {u : Nat} {q : Option Nat} {s1 : Inst ι},
          openAt codecs j page file u q = some s1 → s1.idx = j := by
        intro j page file u q s1 ho
        unfold openAt at ho
        split at ho
        · cases ho
        · injection ho with ho; subst ho; rfl
      split at hs
      · injection hs with hs; injection hs with h1 h2; subst h1; exact h
      · rename_i s1 ho
        have h1 := hidx ho
        split at hs
        · injection hs with hs; injection hs with h2 h3; subst h2; rw [h1]; exact hi
        · split at hs
          · injection hs with hs; injection hs with h2 h3; subst h2; rw [h1]; exact hi
          · split at hs
            · injection hs with hs; injection hs with h2 h3; subst h2; show P s1.idx; rw [h1]; exact hi
            · cases hs
    all_goals
      repeat' split at hs
      all_goals first
        | cases hs; done
        | (injection hs with hs; injection hs with h1 h2; subst h1; exact h)
  | _ =>
    simp only [step] at hs
    repeat' split at hs
    all_goals first
      | cases hs; done
      | (injection hs with hs; injection hs with h1 h2; subst h1; exact h)

theorem idx_run {ι : Type} {codecs : ι → Codec} {P : ι → Prop} (es : List (Ev ι)) {s s' : Inst ι} {rs : List (Out Unit)}
    (h : P s.idx) (he : ∀ i, Ev.api i ∈ es → P i) (hs : run codecs s es = some (s', rs)) : P s'.idx := by
  induction es generalizing s rs with
  | nil => simp only [run, Option.some.injEq, Prod.mk.injEq] at hs; obtain ⟨rfl, _⟩ := hs; exact h
  | cons e es ih =>
    unfold run at hs
    split at hs
    · cases hs
    · rename_i s1 r hstep
      split at hs
      · cases hs
      · rename_i s2 rs2 hrun
        simp only [Option.some.injEq, Prod.mk.injEq] at hs
        obtain ⟨rfl, rfl⟩ := hs
        exact ih (idx_step h (fun i hi => he i (by simp [hi])) hstep) (fun i hi => he i (List.mem_cons_of_mem _ hi)) hrun

theorem quiet_idx {ι : Type} {codecs : ι → Codec} {cb : Cb} (es : List (Ev ι)) {s s' : Inst ι} {rs : List (Out Unit)}
    (h : Quiet cb s) (hno : calls es = []) (hs : run codecs s es = some (s', rs)) : s'.idx = s.idx := by
  induction es generalizing s rs with
  | nil => simp only [run, Option.some.injEq, Prod.mk.injEq] at hs; obtain ⟨rfl, _⟩ := hs; rfl
  | cons e es ih =>
    unfold run at hs
    split at hs
    · cases hs
    · rename_i s1 r hstep
      split at hs
      · cases hs
      · rename_i s2 rs2 hrun
        simp only [Option.some.injEq, Prod.mk.injEq] at hs
        obtain ⟨rfl, rfl⟩ := hs
        rw [calls_cons] at hno
        have he : e.call? = none := by
          cases hc : e.call? with
          | none => rfl
          | some m => rw [hc] at hno; simp at hno
        have h1 := ih (quiet_step h he hstep) (by rw [he] at hno; simpa using hno) hrun
        rw [h1]
        refine idx_step (P := fun i => i = s.idx) rfl ?_ hstep
        intro i hi
        subst hi
        rcases h.phase with hp | hp <;> simp [step, hp] at hstep

/-- The directory of the general model an encrypted directory stands for, under key `k`. -/
def EncDir.Fits (k : Bytes) (d : EncDir) (g : Dir (Bytes × Bytes)) : Prop :=
  g.file = d.file ∧ ∀ j, g.idx = some j → j.1 = k ∧ j.2.length = nonceLen ∧ d.nonceFile = some j.2

theorem openEnc_eq {C : Cipher} {page : Nat} {key : String} {k rand : Bytes} {d : EncDir} (hk : decodeKey key = some k) :
    openEnc C page key rand d = openAt (encrypted C) (k, initNonce d.nonceFile rand) page d.file := by
  simp [openEnc, encryptorInit, hk]

theorem initNonce_length {f : Option Bytes} {rand : Bytes} (h : rand.length = nonceLen) : (initNonce f rand).length = nonceLen := by
  unfold initNonce
  split
  · exact h
  · split <;> assumption

/-- The mutating calls of some encrypted sessions. -/
def encCalls (xs : List EncSession) : List (List Mutation × Bool) := xs.map fun x => (calls x.evs, x.clean)

/-- How many mutating calls some encrypted sessions make. -/
def encCallCount (xs : List EncSession) : Nat := (xs.map fun x => (calls x.evs).length).sum

/-- The sessions all use the key string `key`, whose bytes are `k`, and their records fit a page. -/
structure SameKey (key : String) (k : Bytes) (page : Nat) (xs : List EncSession) : Prop where
  key : ∀ x ∈ xs, x.key = key
  rand : ∀ x ∈ xs, x.rand.length = nonceLen
  fits : ∀ x ∈ xs, ∀ e ∈ x.evs, e.EncFits k page

theorem life_of_encLife {C : Cipher} {page cap : Nat} {key : String} {k : Bytes} (hk : decodeKey key = some k)
    {xs : List EncSession} {d d' : EncDir} {rss : List (List (Out Unit))} (hl : EncLife C page d xs rss d')
    (hs : SameKey key k cap xs) {g : Dir (Bytes × Bytes)} (hg : d.Fits k g) :
    ∃ ys g', Life (encrypted C) page g ys rss g' ∧ d'.Fits k g' ∧
      sessionCalls ys = encCalls xs ∧ (∀ y ∈ ys, ∀ e ∈ y.evs, e.EncFits k cap) ∧
      ys.map (·.evs) = xs.map (·.evs) := by
  induction hl generalizing g with
  | nil d => exact ⟨[], g, .nil _, hg, rfl, by simp, rfl⟩
  | @cons d d' x xs s s' rs rss ho hr hc rest ih =>
    have hx : x.key = key := hs.key x List.mem_cons_self
    have hrand := hs.rand x List.mem_cons_self
    have hfit := hs.fits x List.mem_cons_self
    rw [hx, openEnc_eq hk] at ho
    have hP : ∀ i : Bytes × Bytes, i ∈ [(k, initNonce d.nonceFile x.rand)] → i.1 = k ∧ i.2.length = nonceLen := by
      intro i hi
      simp only [List.mem_singleton] at hi
      subst hi
      exact ⟨rfl, initNonce_length hrand⟩
    have hidx : s'.idx.1 = k ∧ s'.idx.2.length = nonceLen := by
      apply idx_run (P := fun i => i.1 = k ∧ i.2.length = nonceLen) x.evs _ _ hr
      · apply hP
        unfold openAt at ho
        split at ho
        · cases ho
        · injection ho with ho; subst ho; simp
      · intro i hi
        exact hfit _ hi
    have hg' : (encLeft s' x.half).Fits k s'.dir := by
      refine ⟨rfl, ?_⟩
      intro j hj
      simp only [dir] at hj
      cases hrm : s'.lp.cb.removed with
      | true => simp [hrm] at hj
      | false =>
        simp only [hrm] at hj
        simp only [Bool.false_eq_true, if_false, Option.some.injEq] at hj
        subst hj
        exact ⟨hidx.1, hidx.2, by simp [encLeft, hrm]⟩
    obtain ⟨ys, g', h1, h2, h3, h4, h5⟩ := ih ⟨fun y hy => hs.key y (List.mem_cons_of_mem _ hy),
      fun y hy => hs.rand y (List.mem_cons_of_mem _ hy), fun y hy => hs.fits y (List.mem_cons_of_mem _ hy)⟩ hg'
    refine ⟨⟨(k, initNonce d.nonceFile x.rand), x.evs, x.clean⟩ :: ys, g', ?_, h2, ?_, ?_, by simp [h5]⟩
    · refine .cons (x := ⟨(k, initNonce d.nonceFile x.rand), x.evs, x.clean⟩) ?_ ?_ hr hc h1
      · intro j hj
        obtain ⟨j1, j2, j3⟩ := hg.2 j hj
        rw [j3]
        simp only [initNonce, j2, if_true]
        rw [← j1]
      · rw [hg.1]; exact ho
    · simp only [sessionCalls, encCalls, List.map_cons] at h3 ⊢
      rw [h3]
    · intro y hy
      rcases List.mem_cons.1 hy with rfl | hy
      · exact hfit
      · exact h4 y hy

theorem callCount_eq {ι : Type} {ys : List (Session ι)} {xs : List EncSession} (h : sessionCalls ys = encCalls xs) :
    callCount ys = encCallCount xs := by
  have := congrArg (fun l : List (List Mutation × Bool) => (l.map fun p => p.1.length).sum) h
  simpa [sessionCalls, encCalls, callCount, encCallCount, Function.comp_def] using this

/-- **C23.** Any number of sessions on a fresh directory with encryption, all with the same key, each any history of
puts, deletes and clears with any interleaving of the background thread and any hash map orders, ended by a clean close
or by the death of the process between two background writes (or between the two removals of `clear_data`).  If the
records fit a page and fewer than `2^32 - 1` calls are made, then every call that returned returned `Ok`, and opening
again with that key - whatever the random generator then yields - shows a plain map to which every session contributed
some first part of its calls, all of them if it was closed cleanly. -/
theorem C23_survives (C : Cipher) {page : Nat} (h8 : 8 ≤ page) (h32 : page < 2 ^ 32) {key : String} {k : Bytes}
    (hk : decodeKey key = some k) {xs : List EncSession} {rss : List (List (Out Unit))} {d : EncDir}
    (hl : EncLife C page EncDir.fresh xs rss d) (hs : SameKey key k page xs)
    (hroom : page * encCallCount xs + 8 < 2 ^ 64) (hctr : encCallCount xs < 2 ^ 32 - 1) :
    (∀ rs ∈ rss, ∀ r ∈ rs, r = .ok ()) ∧
      ∃ S, Survives Store.empty (encCalls xs) S ∧
        ∀ rand, ∃ s, openEnc C page key rand d = some s ∧ s.Shows S := by
  obtain ⟨ys, g', hl', hg', hc, hf, _⟩ := life_of_encLife hk hl hs (g := Dir.fresh) ⟨rfl, by simp [Dir.fresh]⟩
  have hcc := callCount_eq hc
  obtain ⟨hr, S, hS, hg⟩ := life_survives (E := encEnv C page h8 False) (K := 0) hl' (goodDir_fresh _ 0)
    (fun y hy e he => (hf y hy e he).ok h32) (by
      rw [Nat.zero_add, hcc]
      exact ⟨hroom, by simpa [encEnv, aeadPos, counterMax] using hctr⟩)
  refine ⟨hr, S, by rw [← hc]; exact hS, fun rand => ?_⟩
  rw [openEnc_eq hk, ← hg'.1]
  have hi : ∀ j, g'.idx = some j → (k, initNonce d.nonceFile rand) = j := by
    intro j hj
    obtain ⟨j1, j2, j3⟩ := hg'.2 j hj
    rw [j3]
    simp only [initNonce, j2, if_true]
    rw [← j1]
  obtain ⟨s, ho, hv⟩ := openAt_goodDir hg _ hi
  exact ⟨s, ho, shows_of_view ho hv⟩

/-- **C23** when every session is closed: nothing is lost. -/
theorem C23_close_reopen (C : Cipher) {page : Nat} (h8 : 8 ≤ page) (h32 : page < 2 ^ 32) {key : String} {k : Bytes}
    (hk : decodeKey key = some k) {xs : List EncSession} {rss : List (List (Out Unit))} {d : EncDir}
    (hl : EncLife C page EncDir.fresh xs rss d) (hs : SameKey key k page xs) (hclean : ∀ x ∈ xs, x.clean = true)
    (hroom : page * encCallCount xs + 8 < 2 ^ 64) (hctr : encCallCount xs < 2 ^ 32 - 1) (rand : Bytes) :
    ∃ s, openEnc C page key rand d = some s ∧ s.Shows (Store.empty.run (xs.map fun x => calls x.evs).flatten) := by
  obtain ⟨_, S, hS, ho⟩ := C23_survives C h8 h32 hk hl hs hroom hctr
  have := survives_clean hS (by
    intro p hp
    simp only [encCalls, List.mem_map] at hp
    obtain ⟨x, hx, rfl⟩ := hp
    exact hclean x hx)
  obtain ⟨s, h1, h2⟩ := ho rand
  refine ⟨s, h1, ?_⟩
  rw [this] at h2
  simpa [encCalls, Function.comp_def] using h2

/-- **C23**, one record: what is encrypted at a position decrypts to the same buffer at that position, whatever follows
it in the file. -/
theorem C23_record (C : Cipher) (key nonce : Bytes) (b : Buffer) (position : Nat) (hp : position < 2 ^ 32 - 1)
    (hlen : (kvToBytes b).length + 12 < 2 ^ 32) :
    ∃ r, aeadEnc ⟨C, key, nonce⟩ b position = some r ∧ r.length = encRecordSize b.key b.type b.value ∧
      ∀ rest, aeadDec ⟨C, key, nonce⟩ (r ++ rest) position = .ok (some b) r.length := by
  obtain ⟨r, h1, h2, h3⟩ := (aead_lawful ⟨C, key, nonce⟩).enc_dec b position hlen hp
  refine ⟨r, h1, ?_, h3⟩
  rw [h2]
  show (kvToBytes b).length + 12 = 4 + (kvToBytes b).length + 8
  omega

/-! ### A toy cipher, for examples

The plaintext followed by eight bytes of key, nonce and counter: lawful, and a different key, nonce or counter (in the
bytes used) does not decrypt.  It hides nothing, which no theorem here is about. -/

/-- Tag of the toy cipher. -/
def toyTag (key nonce : Bytes) (counter : Nat) : Bytes := beBytes 4 counter ++ beBytes 2 (beVal key) ++ beBytes 2 (beVal nonce)

/-- A lawful cipher. -/
def toy : Cipher where
  encrypt k n c p := p ++ toyTag k n c
  decrypt k n c x := if x.drop (x.length - 8) = toyTag k n c then some (x.take (x.length - 8)) else none
  decrypt_encrypt k n c p := by
    have h : (toyTag k n c).length = 8 := by simp [toyTag]
    simp [h]
  encrypt_length k n c p := by simp [toyTag]

/-- The key of the crate's own tests (src/core/encrypt.rs:177). -/
def testKey : String := "88C51C536176AD8A8EE4A06F62EE897E"
/-- Its bytes. -/
def testKeyBytes : Bytes := [136, 197, 28, 83, 97, 118, 173, 138, 142, 228, 160, 111, 98, 238, 137, 126]

theorem decode_testKey : decodeKey testKey = some testKeyBytes := by decide +kernel

/-- A put under encryption whose call steps and background steps all complete. -/
def encPut (i : Bytes × Bytes) (k : String) (t : BitVec 32) (bs : Bytes) : List (Ev (Bytes × Bytes)) :=
  [.put k t bs, .api i, .api i, .io List.reverse, .io List.reverse, .io List.reverse, .io List.reverse]

/-- Closing: the drop and the steps of the thread up to its end. -/
def encClose : List (Ev (Bytes × Bytes)) := [.drop, .io idOrder]

/-- Eleven random bytes. -/
def nonce1 : Bytes := [1, 2, 3, 4, 5, 6, 7, 8, 9, 10, 11]

/-- Runs sessions on an encrypted directory, for examples. -/
def encLifeRun (C : Cipher) (page : Nat) : EncDir → List EncSession → Option (List (List (Out Unit)) × EncDir)
  | d, [] => some ([], d)
  | d, x :: xs =>
    match openEnc C page x.key x.rand d with
    | none => none
    | some s => match run (encrypted C) s x.evs with
      | none => none
      | some (s', rs) =>
        if x.clean = true ∧ ¬ (s'.phase = .closed ∧ s'.lp.io = .exited) then none
        else (encLifeRun C page (encLeft s' x.half) xs).map fun (rss, f) => (rs :: rss, f)

theorem encLife_of_run {C : Cipher} {page : Nat} : ∀ (xs : List EncSession) (d d' : EncDir) (rss : List (List (Out Unit))),
    encLifeRun C page d xs = some (rss, d') → EncLife C page d xs rss d' := by
  intro xs
  induction xs with
  | nil =>
    intro d d' rss h
    simp only [encLifeRun, Option.some.injEq, Prod.mk.injEq] at h
    obtain ⟨rfl, rfl⟩ := h
    exact .nil d
  | cons x xs ih =>
    intro d d' rss h
    unfold encLifeRun at h
    split at h
    · cases h
    · rename_i s hs
      split at h
      · cases h
      · rename_i s' rs hr
        split at h
        · cases h
        · rename_i hc
          cases hrec : encLifeRun C page (encLeft s' x.half) xs with
          | none => simp [hrec] at h
          | some p =>
            simp only [hrec, Option.map_some, Option.some.injEq, Prod.mk.injEq] at h
            obtain ⟨rfl, rfl⟩ := h
            refine .cons hs hr ?_ (ih _ _ _ hrec)
            intro hx
            unfold closedOk
            exact Classical.byContradiction fun hn => hc ⟨hx, hn⟩

/-- Two sessions with 80-byte pages: the second put overflows the page and compacts; the second session clears the
store and the process dies between the two removals. -/
def demoEnc : List EncSession :=
  [{ key := testKey, rand := nonce1, clean := true,
     evs := encPut (testKeyBytes, nonce1) "a" 1 (List.replicate 30 7) ++ encPut (testKeyBytes, nonce1) "a" 1 (List.replicate 30 8) ++
       encPut (testKeyBytes, nonce1) "b" 0 [0, 0, 0, 1] ++ encClose },
   { key := testKey, rand := nonce1.map (· + 1), clean := false, half := true,
     evs := encPut (testKeyBytes, nonce1) "c" 2 [1] ++ [.clear, .api (testKeyBytes, nonce1), .api (testKeyBytes, nonce1), .io idOrder,
       .io idOrder, .io idOrder] }]

/-- The demo sessions meet the hypotheses of C23. -/
example : (∃ rss d, EncLife toy 80 EncDir.fresh demoEnc rss d ∧ d = ⟨[], some nonce1⟩) ∧
    SameKey testKey testKeyBytes 80 demoEnc ∧ encCallCount demoEnc = 5 := by
  refine ⟨?_, ⟨by simp [demoEnc], by simp [demoEnc, nonce1, nonceLen], ?_⟩, by decide⟩
  · have h : ((encLifeRun toy 80 EncDir.fresh demoEnc).map fun p => decide (p.2 = ⟨[], some nonce1⟩)) = some true := by decide +kernel
    cases hr : encLifeRun toy 80 EncDir.fresh demoEnc with
    | none => simp [hr] at h
    | some p => exact ⟨_, p.2, encLife_of_run _ _ _ _ hr, by simpa [hr] using h⟩
  · intro x hx e he
    have hput : ∀ k t bs, (kvToBytes ⟨k, t, bs⟩).length ≤ 68 → (Ev.put k t bs).EncFits testKeyBytes 80 := by
      intro k t bs h; simp only [Ev.EncFits, encRecordSize]; omega
    simp only [demoEnc, encPut, encClose, List.cons_append, List.nil_append, List.mem_cons, List.not_mem_nil, or_false] at hx
    rcases hx with rfl | rfl <;>
    · simp only [List.mem_cons, List.not_mem_nil, or_false] at he
      repeat' rcases he with rfl | he
      all_goals try subst he
      all_goals first
        | trivial
        | exact ⟨rfl, rfl⟩
        | (apply hput; decide +kernel)
        | exact fun l => List.reverse_perm l
        | exact fun l => List.Perm.refl l

/-- The compaction of the first session did happen: after it the file holds two records, not three. -/
example : ((encLifeRun toy 80 EncDir.fresh (demoEnc.take 1)).bind fun p => fileRecords (encrypted toy (testKeyBytes, nonce1)) p.2.file) =
    some [some ⟨"a", 1, List.replicate 30 8⟩, some ⟨"b", 0, [0, 0, 0, 1]⟩] := by decide +kernel

/-! ### The ciphertexts of a data file -/

/-- Splits content into ciphertexts: four bytes of length, then as many bytes (src/core/encrypt.rs:133-140). -/
def cipherFrames : (fuel : Nat) → Bytes → Option (List Bytes)
  | _, [] => some []
  | 0, _ :: _ => none
  | fuel + 1, b :: bs =>
    let data := b :: bs
    let n := beVal (data.take 4)
    if data.length < 4 + n then none
    else (cipherFrames fuel (data.drop (4 + n))).map ((data.drop 4).take n :: ·)

/-- The ciphertexts of an encrypted data file, in order; they can be told without any key. -/
def cipherTexts (file : Bytes) : Option (List Bytes) :=
  let n := beVal (file.take 8)
  if file.length < 8 + n then none else cipherFrames n ((file.drop 8).take n)

/-- What ciphertext number `n` decodes to. -/
def decodeCt (S : Stream) (n : Nat) (ct : Bytes) : Option Buffer :=
  match S.decrypt ct n with
  | some plain => kvFromBytes plain
  | none => none

theorem aeadDec_inv {S : Stream} {data : Bytes} {pos : Nat} {ob : Option Buffer} {len : Nat} (h : aeadDec S data pos = .ok ob len) :
    4 ≤ data.length ∧ 4 + beVal (data.take 4) ≤ data.length ∧ 4 + beVal (data.take 4) < 2 ^ 32 ∧ len = 4 + beVal (data.take 4) ∧
      ob = decodeCt S pos ((data.drop 4).take (beVal (data.take 4))) := by
  unfold aeadDec at h
  split at h
  · cases h
  simp only [] at h
  split at h
  · cases h
  split at h
  · cases h
  injection h with h1 h2
  refine ⟨by omega, by omega, by omega, h2.symm, h1.symm⟩

theorem aeadDec_ok (S : Stream) {data : Bytes} (pos : Nat) (h4 : 4 ≤ data.length) (hl : 4 + beVal (data.take 4) ≤ data.length)
    (h32 : 4 + beVal (data.take 4) < 2 ^ 32) :
    aeadDec S data pos = .ok (decodeCt S pos ((data.drop 4).take (beVal (data.take 4)))) (4 + beVal (data.take 4)) := by
  unfold aeadDec
  rw [if_neg (by omega)]
  simp only []
  rw [if_neg (by omega), if_neg (by omega)]
  rfl

/-- Records framed under one key and nonce are framed under every other, and their ciphertexts are the same. -/
theorem framed_cts {S : Stream} {pos : Nat} {content : Bytes} {items : List (Option Buffer)}
    (h : Framed (aeadCodec S) pos content items) :
    ∃ cts : List Bytes, (∀ fuel, content.length ≤ fuel → cipherFrames fuel content = some cts) ∧
      (∀ S' : Stream, Framed (aeadCodec S') pos content (cts.mapIdx fun n ct => decodeCt S' (pos + n) ct)) ∧
      items = cts.mapIdx fun n ct => decodeCt S (pos + n) ct := by
  induction h with
  | nil pos => exact ⟨[], fun fuel _ => by cases fuel <;> rfl, fun S' => .nil _, rfl⟩
  | cons pos chunk content ob items hne hdec htail ih =>
    obtain ⟨cts, h1, h2, h3⟩ := ih
    have hd0 : aeadDec S chunk pos = .ok ob chunk.length := by
      have := hdec []
      rw [List.append_nil] at this
      exact this
    obtain ⟨e1, e2, e3, e4, e5⟩ := aeadDec_inv hd0
    have htk : ∀ rest : Bytes, (chunk ++ rest).take 4 = chunk.take 4 := fun rest =>
      List.take_append_of_le_length e1
    have hbody : ∀ rest : Bytes, ((chunk ++ rest).drop 4).take (beVal (chunk.take 4)) = (chunk.drop 4).take (beVal (chunk.take 4)) := by
      intro rest
      rw [List.drop_append_of_le_length e1, List.take_append_of_le_length (by simp; omega)]
    refine ⟨(chunk.drop 4).take (beVal (chunk.take 4)) :: cts, ?_, ?_, ?_⟩
    · intro fuel hf
      cases hcc : chunk ++ content with
      | nil => simp [hne] at hcc
      | cons b bs =>
        cases fuel with
        | zero => rw [hcc] at hf; simp at hf
        | succ fuel =>
          unfold cipherFrames
          rw [← hcc]
          simp only [htk]
          rw [if_neg (by simp; omega), hbody, ← e4, List.drop_left' rfl, h1 fuel (by simp at hf; omega)]
          rfl
    · intro S'
      rw [List.mapIdx_cons]
      refine .cons _ _ _ _ _ hne ?_ ?_
      · intro rest
        show aeadDec S' (chunk ++ rest) pos = _
        rw [aeadDec_ok S' pos (by simp; omega) (by rw [htk]; simp; omega) (by rw [htk]; exact e3), htk, hbody, ← e4]
        rfl
      · have := h2 S'
        simpa only [Nat.add_assoc, Nat.add_comm 1] using this
    · rw [List.mapIdx_cons, e5, h3]
      simp only [Nat.add_assoc, Nat.add_comm 1]
      rfl

theorem holds_cts {S : Stream} {file content : Bytes} {items : List (Option Buffer)} (hh : Holds file content)
    (hf : Framed (aeadCodec S) 0 content items) :
    ∃ cts, cipherTexts file = some cts ∧
      (∀ S' : Stream, Framed (aeadCodec S') 0 content (cts.mapIdx fun n ct => decodeCt S' n ct)) ∧
      items = cts.mapIdx fun n ct => decodeCt S n ct := by
  obtain ⟨cts, h1, h2, h3⟩ := framed_cts hf
  refine ⟨cts, ?_, by simpa using h2, by simpa using h3⟩
  have hb := hh.body
  unfold cipherTexts
  rw [hh.header]
  simp only []
  have := hh.len
  rw [List.drop_take, Nat.add_sub_cancel] at hb
  rw [if_neg (by omega), hb]
  exact h1 _ (Nat.le_refl _)

/-! ### C25 -/

/-- No record of the file authenticates under this key and nonce. -/
def NoneAuthentic (C : Cipher) (key nonce file : Bytes) : Prop :=
  ∀ cts, cipherTexts file = some cts → ∀ n ct, cts[n]? = some ct → C.decrypt key nonce n ct = none

theorem foldl_mapStep_none (n : Nat) : (List.replicate n (none : Option Buffer)).foldl mapStep [] = [] := by
  induction n with
  | zero => rfl
  | succ n ih => rw [List.replicate_succ, List.foldl_cons]; exact ih

/-- A file that opens under one key and nonce opens under any other. -/
theorem opens_under_any {C : Cipher} {i j : Bytes × Bytes} {page : Nat} {file : Bytes} {s : Inst (Bytes × Bytes)}
    (h : openAt (encrypted C) i page file = some s) :
    ∃ cts, cipherTexts (configNew page file) = some cts ∧ ∃ s', openAt (encrypted C) j page file = some s' ∧
      s'.kv = (intoMap (cts.mapIdx fun n ct => decodeCt ⟨C, j.1, j.2⟩ n ct)).1 := by
  unfold openAt at h
  split at h
  · cases h
  rename_i o ho
  unfold openStore at ho
  simp only [] at ho
  split at ho
  · cases ho
  rename_i hne
  split at ho
  · cases ho
  rename_i items hi
  obtain ⟨hu, content, hh, hf⟩ := readItems_inv (aead_lawful ⟨C, i.1, i.2⟩) rfl hi
  obtain ⟨cts, h1, h2, h3⟩ := holds_cts hh hf
  refine ⟨cts, h1, ?_⟩
  have hrd := readItems_eq (c := aeadCodec ⟨C, j.1, j.2⟩)
    (s := ⟨configNew page file, (configNew page file).length, page, (cts.mapIdx fun n ct => decodeCt ⟨C, j.1, j.2⟩ n ct).length, false, 8, none, []⟩)
    ⟨rfl, rfl, hh, h2 ⟨C, j.1, j.2⟩, rfl⟩
  have hrd' : ({ file := configNew page file, mmLen := (configNew page file).length, page := page, position := 0, needTrim := false } : WState).readItems
      (encrypted C j) = some (cts.mapIdx fun n ct => decodeCt ⟨C, j.1, j.2⟩ n ct) := hrd
  unfold openAt openStore
  simp only [hne, if_false, hrd']
  exact ⟨_, rfl, rfl⟩

/-- **C25.** An encrypted directory `d` that shows `S0` under the right key.  Open it instead with a key and nonce file
(missing, damaged or of another store) under which no record authenticates: it opens, shows the empty store, and doing
anything but mutations - in particular closing - leaves the data file byte for byte as it was; and with the nonce file
as it was, the right key shows `S0` again. -/
theorem C25_wrong_key_or_nonce (C : Cipher) {page : Nat} {key key' : String} {k' rand rand' : Bytes} {nf' : Option Bytes} {d : EncDir}
    {s : Inst (Bytes × Bytes)} {S0 : Store} (hne : d.file ≠ []) (hright : openEnc C page key rand d = some s) (hS0 : s.Shows S0)
    (hk' : decodeKey key' = some k') (hno : NoneAuthentic C k' (initNonce nf' rand') d.file) :
    ∃ s', openEnc C page key' rand' ⟨d.file, nf'⟩ = some s' ∧ s'.Shows Store.empty ∧
      ∀ es s'' rs half, run (encrypted C) s' es = some (s'', rs) → calls es = [] →
        encLeft s'' half = ⟨d.file, some (initNonce nf' rand')⟩ ∧
        ∃ s2, openEnc C page key rand ⟨(encLeft s'' half).file, d.nonceFile⟩ = some s2 ∧ s2.Shows S0 := by
  obtain ⟨i, hi⟩ : ∃ i, openAt (encrypted C) i page d.file = some s := by
    unfold openEnc at hright
    split at hright
    · cases hright
    · exact ⟨_, hright⟩
  obtain ⟨cts, hcts, s', ho, hkv⟩ := opens_under_any (j := (k', initNonce nf' rand')) hi
  have hlen : d.file.length ≠ 0 := by simpa using hne
  simp only [configNew, hlen, if_false] at hcts
  have hnone : (cts.mapIdx fun n ct => decodeCt ⟨C, k', initNonce nf' rand'⟩ n ct) = List.replicate cts.length none := by
    apply List.ext_getElem?
    intro n
    rw [List.getElem?_mapIdx, List.getElem?_replicate]
    by_cases hn : n < cts.length
    · rw [List.getElem?_eq_getElem hn, if_pos hn]
      have := hno cts hcts n _ (List.getElem?_eq_getElem hn)
      simp [decodeCt, Stream.decrypt, this]
    · rw [List.getElem?_eq_none (by omega), if_neg hn]; rfl
  have hempty : s'.Shows Store.empty := by
    apply shows_of_view ho
    rw [hkv]
    simp only [hnone, intoMap, foldl_mapStep_none, view_nil]
  refine ⟨s', by rw [openEnc_eq hk']; exact ho, hempty, ?_⟩
  intro es s'' rs half hrun hcalls
  have hd := C22_open_close ho hrun hcalls
  rw [if_neg hne] at hd
  have hidx : s''.idx = (k', initNonce nf' rand') ∧ s''.lp.cb.removed = false := by
    unfold openAt at ho
    split at ho
    · cases ho
    rename_i o _
    injection ho with ho
    subst ho
    have hq : Quiet { ws := o.ws } { idx := (k', initNonce nf' rand'), kv := o.kv, lp := Looper.new { ws := o.ws } : Inst (Bytes × Bytes) } :=
      ⟨rfl, rfl, rfl, rfl, .inl rfl⟩
    refine ⟨quiet_idx es hq hcalls hrun, ?_⟩
    rw [(quiet_run es hq hcalls hrun).cb]
  have hleft : encLeft s'' half = ⟨d.file, some (initNonce nf' rand')⟩ := by
    simp [encLeft, hd, hidx.1, hidx.2]
  refine ⟨hleft, s, ?_, hS0⟩
  rw [hleft]
  exact hright

/-- The directory `demoEnc` leaves after its first session, opened with a key that differs in the last digit. -/
example : ∃ d s, openEnc toy 80 testKey nonce1 d = some s ∧ d.file ≠ [] ∧ s.kv.length = 2 ∧
    decodeKey "88C51C536176AD8A8EE4A06F62EE897F" = some (testKeyBytes.set 15 127) ∧
    NoneAuthentic toy (testKeyBytes.set 15 127) (initNonce d.nonceFile nonce1) d.file := by
  have h : ((encLifeRun toy 80 EncDir.fresh (demoEnc.take 1)).map fun p =>
      ((openEnc toy 80 testKey nonce1 p.2).map fun s => decide (s.kv.length = 2),
        decide (p.2.file ≠ []),
        (cipherTexts p.2.file).map fun cts => (List.range cts.length).all fun n =>
          (toy.decrypt (testKeyBytes.set 15 127) (initNonce p.2.nonceFile nonce1) n (cts.getD n [])).isNone)) =
      some (some true, true, some true) := by decide +kernel
  cases hr : encLifeRun toy 80 EncDir.fresh (demoEnc.take 1) with
  | none => simp [hr] at h
  | some p =>
    rw [hr] at h
    simp only [Option.map_some, Option.some.injEq, Prod.mk.injEq] at h
    obtain ⟨h1, h2, h3⟩ := h
    cases ho : openEnc toy 80 testKey nonce1 p.2 with
    | none => simp [ho] at h1
    | some s =>
      refine ⟨p.2, s, ho, by simpa using h2, by simpa [ho] using h1, by decide +kernel, ?_⟩
      intro cts hc n ct hn
      rw [hc] at h3
      simp only [Option.map_some, Option.some.injEq, List.all_eq_true, List.mem_range] at h3
      have hlt : n < cts.length := by
        have := List.getElem?_eq_some_iff.1 hn
        exact this.1
      have := h3 n hlt
      rw [List.getD_eq_getElem?_getD, hn] at this
      simpa using this

/-! ### C24 -/

/-- The data file holds, as its record number `n`, a ciphertext made with counter `n` that decrypts to `plain`. -/
def StoredUnder (S : Stream) (file : Bytes) (n : Nat) (plain : Bytes) : Prop :=
  ∃ cts ct, cipherTexts file = some cts ∧ cts[n]? = some ct ∧ S.cipher.decrypt S.key S.nonce n ct = some plain

/-- Two data files between them hold two different plaintexts encrypted under the same key, nonce and counter. -/
def Reuse (S : Stream) (file1 file2 : Bytes) : Prop :=
  ∃ n p1 p2, StoredUnder S file1 n p1 ∧ StoredUnder S file2 n p2 ∧ p1 ≠ p2

theorem storedUnder_of_item {S : Stream} {file content : Bytes} {items : List (Option Buffer)} (hh : Holds file content)
    (hf : Framed (aeadCodec S) 0 content items) {n : Nat} {b : Buffer} (hn : items[n]? = some (some b)) :
    ∃ p, StoredUnder S file n p ∧ kvFromBytes p = some b := by
  obtain ⟨cts, h1, _, h3⟩ := holds_cts hh hf
  rw [h3, List.getElem?_mapIdx] at hn
  cases hct : cts[n]? with
  | none => simp [hct] at hn
  | some ct =>
    simp only [hct, Option.map_some, Option.some.injEq] at hn
    unfold decodeCt at hn
    split at hn
    · rename_i p hp
      refine ⟨p, ⟨cts, ct, h1, hct, ?_⟩, hn⟩
      unfold Stream.decrypt at hp
      split at hp
      · cases hp
      · exact hp
    · cases hn

/-- **C24 is false of this program**, for every cipher, in a way any observer of the file can exploit: whenever a write
compacts the file (the record does not fit and something was overwritten or deleted), the surviving values are
encrypted again from counter 0 under the same key and nonce.  Unless the compaction happens to write the values in
exactly the order of the old records, an old and a new record then share key, nonce and counter. -/
theorem C24_refuted_at_every_compaction {S : Stream} {s : WState} {content : Bytes} {items : List (Option Buffer)}
    (hv : Valid (aeadCodec S) s content items) (hq : s.quota = none) (hok : ∀ b, some b ∈ items → aeadOk b)
    (hsz : ∀ b, some b ∈ items → aeadLen b ≤ s.page) {b : Buffer} (hb : aeadOk b) (hbl : aeadLen b ≤ s.page) {dup : Bool}
    (hfull : s.file.length < content.length + 8 + aeadLen b) (htrim : (s.needTrim || dup) = true)
    (hb1 : content.length + aeadLen b + 8 < 2 ^ 64) (hb2 : recSum aeadLen items + aeadLen b + 8 < 2 ^ 64)
    (hpos : items.length + 1 < 2 ^ 32 - 1)
    (order : Order) (ho : ∀ l, (order l).Perm l) {n : Nat} {b1 b2 : Buffer} (h1 : items[n]? = some (some b1))
    (h2 : (order (mapStep (intoMap items).1 (some b)).values)[n]? = some b2) (hne : b1 ≠ b2) :
    ∃ s', s.write (aeadCodec S) order b dup = .done s' ∧ Reuse S s.file s'.file := by
  have hall : ∀ b', some b' ∈ items ++ [some b] → aeadLen b' ≤ s.page := by
    intro b' hb'
    rcases List.mem_append.1 hb' with h | h
    · exact hsz b' h
    · simp at h; subst h; exact hbl
  obtain ⟨s', content', items', hw, hv', _, hshape, _⟩ := write_core (aead_lawful S) order ho b dup hv hq (by
      intro b' hb'
      rcases List.mem_append.1 hb' with h | h
      · exact hok b' h
      · simp at h; subst h; exact hb) (.inl hall) hb1 (fun _ => hb2) hpos
  refine ⟨s', hw, ?_⟩
  obtain ⟨p1, hp1, hk1⟩ := storedUnder_of_item hv.holds hv.framed h1
  have h2' : items'[n]? = some (some b2) := by
    cases hshape with
    | append hfit => omega
    | expand _ hnt => rw [htrim] at hnt; cases hnt
    | trim _ _ hi =>
      rw [hi, List.getElem?_map, h2]; rfl
  obtain ⟨p2, hp2, hk2⟩ := storedUnder_of_item hv'.holds hv'.framed h2'
  refine ⟨n, p1, p2, hp1, hp2, ?_⟩
  rintro rfl
  rw [hk1] at hk2
  injection hk2 with hk2
  exact hne hk2

/-- A store with nothing under way, whose thread waits for work. -/
structure Resting {ι : Type} (s : Inst ι) : Prop where
  phase : s.phase = .idle
  poisoned : s.poisoned = false
  valid : s.valid = true
  queue : s.lp.queue = []
  buf : s.lp.buf = []
  chan : s.lp.chan = []
  sender : s.lp.sender = true
  io : s.lp.io = .recv
  removed : s.lp.cb.removed = false

/-- The steps of a put and of the thread until it waits again. -/
def putSteps {ι : Type} (i : ι) (o : Order) (k : String) (t : BitVec 32) (bs : Bytes) : List (Ev ι) :=
  [.put k t bs, .api i, .api i, .io o, .io o, .io o, .io o]

/-- A whole put on a resting store whose background write succeeds. -/
theorem run_putSteps {ι : Type} {codecs : ι → Codec} {s : Inst ι} (h : Resting s) (i : ι) (o : Order) (k : String) (t : BitVec 32)
    (bs : Bytes) (htok : tokenOk t = true) {ws : WState}
    (hw : s.lp.cb.ws.write (codecs s.idx) o (Buffer.ofRaw k t bs) (s.kv.get k).isSome = .done ws) :
    ∃ s', run codecs s (putSteps i o k t bs) = some (s', [.ok ()]) ∧ Resting s' ∧ s'.lp.cb.ws = ws ∧ s'.idx = s.idx ∧
      s'.kv = s.kv.insert k (Buffer.ofRaw k t bs) := by
  obtain ⟨h1, h2, h3, h4, h5, h6, h7, h8, h9⟩ := h
  obtain ⟨idx, kv, valid, poisoned, phase, joined, lp⟩ := s
  obtain ⟨queue, chan, sender, owed, buf, io, cb, pushed, late, ran⟩ := lp
  simp only at h1 h2 h3 h4 h5 h6 h7 h8 h9 hw
  subst h1 h2 h3 h4 h5 h6 h7 h8
  refine ⟨⟨idx, kv.insert k (Buffer.ofRaw k t bs), true, false, .idle, joined,
    ⟨[], [], true, owed + 1 - 1, [], .recv, { cb with ws := ws }, pushed ++ [.write (Buffer.ofRaw k t bs) (kv.get k).isSome], late,
      ran ++ [(o, .write (Buffer.ofRaw k t bs) (kv.get k).isSome)]⟩⟩, ?_, ⟨⟨rfl, rfl, rfl, rfl, rfl, rfl, rfl, rfl, h9⟩, rfl, rfl, rfl⟩⟩
  simp only [putSteps, run, step, htok, Looper.push, Looper.send, Looper.ioStep, execJob, hw, ne_eq, not_true_eq_false, reduceCtorEq,
    Bool.true_eq_false, Bool.false_eq_true, or_self, if_true, if_false, Option.toList, List.append_nil, List.nil_append]

theorem resting_open {ι : Type} {codecs : ι → Codec} {i : ι} {page : Nat} {file : Bytes} {s : Inst ι}
    (h : openAt codecs i page file = some s) : Resting s := by
  unfold openAt at h
  split at h
  · cases h
  · injection h with h; subst h; exact ⟨rfl, rfl, rfl, rfl, rfl, rfl, rfl, rfl, rfl⟩

/-- **C24 is false of this program**, end to end, for every cipher, key and nonce: on a fresh directory with 64-byte pages
put a 30-byte string, then put another one at the same key.  All calls succeed; the first record of the file after the
first put and the first record after the second are different plaintexts encrypted under the same key, nonce and
counter. -/
theorem C24_refuted (C : Cipher) {key : String} {k nonce : Bytes} (hk : decodeKey key = some k) :
    ∃ s0 s1 s2 es1 es2, openEnc C 64 key nonce EncDir.fresh = some s0 ∧
      run (encrypted C) s0 es1 = some (s1, [.ok ()]) ∧ run (encrypted C) s1 es2 = some (s2, [.ok ()]) ∧
      s1.idx = (k, nonce) ∧ s2.idx = (k, nonce) ∧ Reuse ⟨C, k, nonce⟩ s1.disk s2.disk := by
  let S : Stream := ⟨C, k, nonce⟩
  have hopen := openStore_nil (aeadCodec S) 64 (by decide) none
  obtain ⟨s0, ho⟩ : ∃ s0, openAt (encrypted C) (k, nonce) 64 [] = some s0 := by
    unfold openAt
    rw [show openStore (encrypted C (k, nonce)) 64 [] 8 none = _ from hopen]
    exact ⟨_, rfl⟩
  have hr0 := resting_open ho
  have hs0 : s0.idx = (k, nonce) ∧ s0.kv = [] ∧ Valid (aeadCodec S) s0.lp.cb.ws [] [] ∧ s0.lp.cb.ws.quota = none ∧
      s0.lp.cb.ws.file.length = 64 ∧ s0.lp.cb.ws.needTrim = false ∧ s0.lp.cb.ws.page = 64 := by
    unfold openAt at ho
    rw [show openStore (encrypted C (k, nonce)) 64 [] 8 none = _ from hopen] at ho
    injection ho with ho
    subst ho
    exact ⟨rfl, rfl, ⟨rfl, by simp [Looper.new, zeros], ⟨by simp, _, zeros_eq 64 (by decide)⟩, .nil _, rfl⟩, rfl, by simp [Looper.new, zeros], rfl, rfl⟩
  obtain ⟨hi0, hkv0, hv0, hq0, hl0, hn0, hp0⟩ := hs0
  let b0 : Buffer := Buffer.ofRaw "a" 1 (List.replicate 30 7)
  let b1 : Buffer := Buffer.ofRaw "a" 1 (List.replicate 30 8)
  have hlen0 : aeadLen b0 = 49 := by decide +kernel
  have hlen1 : aeadLen b1 = 49 := by decide +kernel
  have hok0 : aeadOk b0 := by have := hlen0; simp only [aeadLen] at this; simp only [aeadOk]; omega
  have hok1 : aeadOk b1 := by have := hlen1; simp only [aeadLen] at this; simp only [aeadOk]; omega
  have horder : ∀ l : List Buffer, (id l).Perm l := fun l => List.Perm.refl l
  obtain ⟨w1, c1, i1, hw1, hv1, hc1, hsh1, _⟩ := write_core (aead_lawful S) id horder b0 false hv0 hq0
    (by intro b' hb'; simp at hb'; subst hb'; exact hok0) (.inl (by intro b' hb'; simp at hb'; subst hb'; omega))
    (by simp; omega) (by intro _; simp [recSum, sumLen]; omega) (by simp [aeadPos, counterMax])
  have hs1 : i1 = [some b0] ∧ c1.length = 49 ∧ w1.file.length = 64 := by
    cases hsh1 with
    | append hfit hi hc hl =>
      obtain ⟨r, hr, rfl⟩ := hc
      exact ⟨by simpa using hi, hr.trans hlen0, by omega⟩
    | expand hfull => simp at hfull; omega
    | trim hfull => simp at hfull; omega
  obtain ⟨rfl, hcl1, hfl1⟩ := hs1
  obtain ⟨s1, hrun1, hr1, hws1, hidx1, hkv1⟩ := run_putSteps (codecs := encrypted C) hr0 (k, nonce) id "a" 1 (List.replicate 30 7)
    (by decide) (ws := w1) (by
      rw [hi0, hkv0]
      exact hw1)
  have hget1 : (s1.kv.get "a").isSome = true := by rw [hkv1, hkv0]; decide
  obtain ⟨w2, hw2, hre⟩ := C24_refuted_at_every_compaction hv1 (hc1.quota.trans hq0)
    (by intro b hb; simp at hb; subst hb; exact hok0) (by intro b hb; simp at hb; subst hb; rw [hc1.page]; omega)
    hok1 (by rw [hc1.page]; omega) (dup := true) (by omega) (by simp) (by omega)
    (by simp [recSum, sumLen]; omega) (by simp) id horder (n := 0) (b1 := b0) (b2 := b1) rfl (by decide +kernel) (by decide)
  obtain ⟨s2, hrun2, hr2, hws2, hidx2, hkv2⟩ := run_putSteps (codecs := encrypted C) hr1 (k, nonce) id "a" 1 (List.replicate 30 8)
    (by decide) (ws := w2) (by
      rw [hidx1, hi0, hws1, hget1]
      exact hw2)
  refine ⟨s0, s1, s2, _, _, ?_, hrun1, hrun2, by rw [hidx1, hi0], by rw [hidx2, hidx1, hi0], ?_⟩
  · rw [openEnc_eq hk]
    exact ho
  · have hd1 : s1.disk = w1.file := by simp [disk, hr1.removed, hws1]
    have hd2 : s2.disk = w2.file := by simp [disk, hr2.removed, hws2]
    rw [hd1, hd2]
    exact hre

/-- An encrypted writer at rest: the mapping covers the file, the file can be read, and the writer's position is the
number of records in it.  Every writer of an open store is, between two of its writes (`encAtRest_open`, and
`C24_partial` itself). -/
structure EncAtRest (S : Stream) (s : WState) : Prop where
  target : s.usizeBytes = 8
  mapped : s.mmLen = s.file.length
  disk : s.quota = none
  reads : ∃ items, s.readItems (aeadCodec S) = some items ∧ s.position = items.length

theorem EncAtRest.valid {S : Stream} {s : WState} (h : EncAtRest S s) : ∃ content items, Valid (aeadCodec S) s content items := by
  obtain ⟨items, hi, hp⟩ := h.reads
  obtain ⟨_, content, hh, hf⟩ := readItems_inv (aead_lawful S) h.mapped hi
  exact ⟨content, items, h.target, h.mapped, hh, hf, hp⟩

theorem encAtRest_openStore {S : Stream} {page : Nat} {file : Bytes} {o : Opened}
    (ho : openStore (aeadCodec S) page file = some o) : EncAtRest S o.ws ∧ o.ws.file = configNew page file := by
  unfold openStore at ho
  simp only [] at ho
  split at ho
  · cases ho
  split at ho
  · cases ho
  rename_i items hi
  injection ho with ho
  subst ho
  exact ⟨⟨rfl, rfl, rfl, items, hi, rfl⟩, rfl⟩

theorem encAtRest_open {C : Cipher} {i : Bytes × Bytes} {page : Nat} {file : Bytes} {s : Inst (Bytes × Bytes)}
    (h : openAt (encrypted C) i page file = some s) : EncAtRest ⟨C, i.1, i.2⟩ s.lp.cb.ws := by
  unfold openAt at h
  split at h
  · cases h
  rename_i o ho
  injection h with h
  subst h
  exact (encAtRest_openStore (S := ⟨C, i.1, i.2⟩) ho).1

/-- A write that is not a compaction: its record fits the file, or no compaction is due and it fits after adding one
page. -/
def NoCompaction (b : Buffer) (dup : Bool) (s : WState) : Prop :=
  8 + beVal (s.file.take 8) + encRecordSize b.key b.type b.value ≤ s.file.length ∨
    ((s.needTrim || dup) = false ∧ 8 + beVal (s.file.take 8) + encRecordSize b.key b.type b.value ≤ s.file.length + s.page)

/-- Some writes one after the other, none of them a compaction, within the counter and the 64-bit arithmetic, with the
store closed (or the process killed) and opened again any number of times in between. -/
inductive Appending (S : Stream) : WState → WState → Prop
  | refl (s) : Appending S s s
  | reopen {s s2 : WState} (page : Nat) (o : Opened) (ho : openStore (aeadCodec S) page s.file = some o)
      (rest : Appending S o.ws s2) : Appending S s s2
  | step {s s1 s2 : WState} (order : Order) (b : Buffer) (dup : Bool) (hno : NoCompaction b dup s) (hb : aeadOk b)
      (hpos : s.position < 2 ^ 32 - 1) (hlen : s.file.length + s.page + 8 < 2 ^ 64)
      (hw : s.write (aeadCodec S) order b dup = .done s1) (rest : Appending S s1 s2) : Appending S s s2

theorem write_append_done {c : Codec} {s : WState} {content : Bytes} {items : List (Option Buffer)} (hv : Valid c s content items)
    (hq : s.quota = none) (order : Order) {b : Buffer} {dup : Bool} {r : Bytes} (hr : c.enc b items.length = some r)
    (hfr : Framed c items.length r [some b])
    (hroom : content.length + 8 + r.length ≤ s.file.length ∨
      ((s.needTrim || dup) = false ∧ content.length + 8 + r.length ≤ s.file.length + s.page))
    (hb : content.length + r.length + 8 < 2 ^ 64) :
    ∃ s', s.write c order b dup = .done s' ∧ Valid c s' (content ++ r) (items ++ [some b]) ∧ SameConf s s' := by
  generalize hs0 : (if dup = true then { s with needTrim := true } else s) = s0
  have hfile0 : s0.file = s.file := by rw [← hs0]; split <;> rfl
  have hv0 : Valid c s0 content items := by
    rw [← hs0]; split
    · exact ⟨hv.usz, hv.mm, hv.holds, hv.framed, hv.pos⟩
    · exact hv
  have hconf0 : SameConf s s0 := by rw [← hs0]; split <;> exact ⟨rfl, rfl, rfl⟩
  have htrim0 : s0.needTrim = (s.needTrim || dup) := by
    rw [← hs0]; split
    · rename_i hd; simp [hd]
    · rename_i hd; simp [hd]
  have hq0 : s0.quota = none := by rw [hconf0.quota, hq]
  have henc : c.enc b s.position = some r := by rw [hv.pos]; exact hr
  unfold WState.write
  rw [henc]
  simp only [writeOffset_eq hv.usz hv.mm hv.holds, hs0]
  by_cases hfit : r.length + (content.length + 8) ≤ s.mmLen
  · rw [if_pos hfit]
    rw [hv.mm] at hfit
    obtain ⟨s1, e1, v1, c1, _⟩ := appendRec_done hv0 r b hfr (by rw [hfile0]; omega) (by omega)
    exact ⟨s1, e1, v1, hconf0.trans c1⟩
  · rw [if_neg hfit]
    rw [hv.mm] at hfit
    obtain ⟨hnt, hfit2⟩ : (s.needTrim || dup) = false ∧ content.length + 8 + r.length ≤ s.file.length + s.page := by
      rcases hroom with h | h
      · omega
      · exact h
    rw [← htrim0] at hnt
    simp only [hnt, Bool.false_eq_true, if_false]
    obtain ⟨s1, e1, v1, c1, l1, _⟩ := expand_done hv0 hq0
    rw [e1]
    simp only [Run.andThen_done]
    obtain ⟨s2, e2, v2, c2, _⟩ := appendRec_done v1 r b hfr (by rw [l1, hfile0, hconf0.page]; omega) (by omega)
    exact ⟨s2, e2, v2, (hconf0.trans c1).trans c2⟩

theorem cipherFrames_append {S : Stream} {pos : Nat} {a b : Bytes} {xs : List (Option Buffer)} {cts cts' : List Bytes}
    (ha : Framed (aeadCodec S) pos a xs)
    (h1 : ∀ fuel, a.length ≤ fuel → cipherFrames fuel a = some cts)
    (h2 : ∀ fuel, b.length ≤ fuel → cipherFrames fuel b = some cts') :
    ∀ fuel, (a ++ b).length ≤ fuel → cipherFrames fuel (a ++ b) = some (cts ++ cts') := by
  induction ha generalizing cts with
  | nil pos =>
    have := h1 0 (by simp)
    simp only [cipherFrames, Option.some.injEq] at this
    subst this
    simpa using h2
  | cons pos chunk content ob items hne hdec htail ih =>
    have hd0 : aeadDec S chunk pos = .ok ob chunk.length := by
      have := hdec []
      rw [List.append_nil] at this
      exact this
    obtain ⟨e1, e2, e3, e4, e5⟩ := aeadDec_inv hd0
    have hunf : ∀ (rest : Bytes) fuel, (chunk ++ rest).length ≤ fuel + 1 → cipherFrames (fuel + 1) (chunk ++ rest) =
        (cipherFrames fuel rest).map ((chunk.drop 4).take (beVal (chunk.take 4)) :: ·) := by
      intro rest fuel _
      have htk : (chunk ++ rest).take 4 = chunk.take 4 := List.take_append_of_le_length e1
      have hbody : ((chunk ++ rest).drop 4).take (beVal (chunk.take 4)) = (chunk.drop 4).take (beVal (chunk.take 4)) := by
        rw [List.drop_append_of_le_length e1, List.take_append_of_le_length (by simp; omega)]
      cases hcc : chunk ++ rest with
      | nil => simp [hne] at hcc
      | cons x xs =>
        conv => lhs; unfold cipherFrames
        rw [← hcc]
        simp only [htk]
        rw [if_neg (by simp; omega), hbody, ← e4, List.drop_left' rfl]
    obtain ⟨cts1, g1, _, _⟩ := framed_cts htail
    have hcts : cts = (chunk.drop 4).take (beVal (chunk.take 4)) :: cts1 := by
      have h := h1 ((chunk ++ content).length + 1) (by omega)
      rw [hunf _ _ (by omega), g1 _ (by simp)] at h
      simpa using h.symm
    have ih' := ih g1
    intro fuel hf
    have hpos : 0 < chunk.length := List.length_pos_iff.2 hne
    cases fuel with
    | zero => simp only [List.length_append] at hf; omega
    | succ fuel =>
      rw [List.append_assoc, hunf _ _ (by rw [← List.append_assoc]; exact hf), ih' fuel (by simp at hf ⊢; omega), hcts]
      rfl

/-- The ciphertexts in the file are kept and only added to by writes that do not compact. -/
theorem appending_cts {S : Stream} {s s' : WState} (hw : Appending S s s') (h : EncAtRest S s) :
    EncAtRest S s' ∧ ∃ cts more, cipherTexts s.file = some cts ∧ cipherTexts s'.file = some (cts ++ more) := by
  induction hw with
  | refl s =>
    obtain ⟨content, items, hv⟩ := h.valid
    obtain ⟨cts, h1, _⟩ := holds_cts hv.holds hv.framed
    exact ⟨h, cts, [], h1, by simpa using h1⟩
  | @reopen s s2 page o ho rest ih =>
    obtain ⟨hr, hf⟩ := encAtRest_openStore ho
    obtain ⟨content, items, hv⟩ := h.valid
    have hlen : s.file.length ≠ 0 := by have := hv.holds.len; omega
    simp only [configNew, hlen, if_false] at hf
    obtain ⟨h1, cts, more, h2, h3⟩ := ih hr
    exact ⟨h1, cts, more, by rw [← hf]; exact h2, h3⟩
  | @step s s1 s2 order b dup hno hb hpos hlen hw rest ih =>
    obtain ⟨content, items, hv⟩ := h.valid
    rw [hv.pos] at hpos
    obtain ⟨r, hr, hrl, hfr⟩ := framed_enc (aead_lawful S) b items.length hb hpos
    have hsz : encRecordSize b.key b.type b.value = r.length := by
      rw [hrl]; show 4 + (kvToBytes b).length + 8 = (kvToBytes b).length + 12; omega
    unfold NoCompaction at hno
    rw [hsz, hv.holds.header] at hno
    have hroom : content.length + 8 + r.length ≤ s.file.length ∨
      ((s.needTrim || dup) = false ∧ content.length + 8 + r.length ≤ s.file.length + s.page) := by
      rcases hno with h | ⟨h, h'⟩
      · left; omega
      · right; exact ⟨h, by omega⟩
    obtain ⟨s1', hw', hv1, hc1⟩ := write_append_done hv h.disk order hr hfr hroom (by omega)
    rw [hw] at hw'
    injection hw' with hw'
    subst hw'
    have h1 : EncAtRest S s1 := ⟨hv1.usz, hv1.mm, hc1.quota.trans h.disk, _, readItems_eq hv1, hv1.pos⟩
    obtain ⟨hr2, cts1, more, hc, hc2⟩ := ih h1
    refine ⟨hr2, ?_⟩
    obtain ⟨cts0, e1, e2, e3⟩ := framed_cts hv.framed
    obtain ⟨cts0', f1, f2, f3⟩ := framed_cts hfr
    have hold : cipherTexts s.file = some cts0 := by
      obtain ⟨cts, g1, _, _⟩ := holds_cts hv.holds hv.framed
      have hb := hv.holds.body
      have hl := hv.holds.len
      rw [List.drop_take, Nat.add_sub_cancel] at hb
      unfold cipherTexts
      rw [hv.holds.header]
      simp only []
      rw [if_neg (by omega), hb]
      exact e1 _ (Nat.le_refl _)
    have hnew : cipherTexts s1.file = some (cts0 ++ cts0') := by
      have hb := hv1.holds.body
      have hl := hv1.holds.len
      rw [List.drop_take, Nat.add_sub_cancel] at hb
      unfold cipherTexts
      rw [hv1.holds.header]
      simp only []
      rw [if_neg (by omega), hb]
      exact cipherFrames_append hv.framed e1 f1 _ (Nat.le_refl _)
    rw [hnew] at hc
    injection hc with hc
    exact ⟨cts0, cts0' ++ more, hold, by rw [hc2, ← hc, List.append_assoc]⟩

/-- **C24**, the part that holds: between two compactions (and clears) no counter is reused.  From any writer at rest,
any number of writes that do not compact, the store being closed and opened again any number of times: whatever was encrypted under a counter still is what is encrypted under that
counter, so no two of the files on the way hold different plaintexts under the same key, nonce and counter. -/
theorem C24_partial {S : Stream} {s s' : WState} (h : EncAtRest S s) (hw : Appending S s s') :
    EncAtRest S s' ∧ (∀ n p, StoredUnder S s.file n p → StoredUnder S s'.file n p) ∧ ¬ Reuse S s.file s'.file := by
  obtain ⟨hr, cts, more, h1, h2⟩ := appending_cts hw h
  have hmono : ∀ n p, StoredUnder S s.file n p → StoredUnder S s'.file n p := by
    rintro n p ⟨cts', ct, e1, e2, e3⟩
    rw [h1] at e1
    injection e1 with e1
    subst e1
    refine ⟨_, ct, h2, ?_, e3⟩
    obtain ⟨hlt, _⟩ := List.getElem?_eq_some_iff.1 e2
    rw [List.getElem?_append_left hlt]
    exact e2
  refine ⟨hr, hmono, ?_⟩
  rintro ⟨n, p1, p2, hs1, hs2, hne⟩
  obtain ⟨cts1, ct1, a1, a2, a3⟩ := hmono n p1 hs1
  obtain ⟨cts2, ct2, b1, b2, b3⟩ := hs2
  rw [a1] at b1
  injection b1 with b1
  subst b1
  rw [a2] at b2
  injection b2 with b2
  subst b2
  rw [a3] at b3
  injection b3 with b3
  exact hne b3

/-- Non-vacuity of `C24_partial`: two puts on a fresh 128-byte page, the second, after closing and opening
again, overwriting the first. -/
example : ∃ s0 s', openAt (encrypted toy) (testKeyBytes, nonce1) 128 [] = some s0 ∧
    Appending ⟨toy, testKeyBytes, nonce1⟩ s0.lp.cb.ws s' ∧
    (cipherTexts s'.file).map List.length = some 2 ∧ s'.needTrim = true := by
  let S : Stream := ⟨toy, testKeyBytes, nonce1⟩
  let b0 : Buffer := ⟨"a", 1, List.replicate 30 7⟩
  let b1 : Buffer := ⟨"a", 1, List.replicate 30 8⟩
  have h : ((openAt (encrypted toy) (testKeyBytes, nonce1) 128 []).map fun s0 =>
      match s0.lp.cb.ws.write (aeadCodec S) id b0 false with
      | .done s1 => match openStore (aeadCodec S) 128 s1.file with
        | some o => match o.ws.write (aeadCodec S) id b1 true with
          | .done s2 => decide ((cipherTexts s2.file).map List.length = some 2 ∧ s2.needTrim = true ∧
            8 + beVal (s0.lp.cb.ws.file.take 8) + encRecordSize "a" 1 (List.replicate 30 7) ≤ s0.lp.cb.ws.file.length ∧
            8 + beVal (o.ws.file.take 8) + encRecordSize "a" 1 (List.replicate 30 8) ≤ o.ws.file.length ∧
            s0.lp.cb.ws.position < 5 ∧ o.ws.position < 5 ∧ s0.lp.cb.ws.file.length + s0.lp.cb.ws.page + 8 < 2 ^ 64 ∧
            o.ws.file.length + o.ws.page + 8 < 2 ^ 64)
          | .panic _ => false
        | none => false
      | .panic _ => false) = some true := by decide +kernel
  have hb0 : aeadOk b0 := by
    have : (kvToBytes b0).length + 12 = 49 := by decide +kernel
    unfold aeadOk; omega
  have hb1 : aeadOk b1 := by
    have : (kvToBytes b1).length + 12 = 49 := by decide +kernel
    unfold aeadOk; omega
  cases ho : openAt (encrypted toy) (testKeyBytes, nonce1) 128 [] with
  | none => rw [ho] at h; cases h
  | some s0 =>
    rw [ho] at h
    simp only [Option.map_some, Option.some.injEq] at h
    split at h
    · rename_i s1 hw1
      split at h
      · rename_i o hop
        split at h
        · rename_i s2 hw2
          simp only [decide_eq_true_eq] at h
          obtain ⟨h1, h2, h3, h4, h5, h6, h7, h8⟩ := h
          refine ⟨s0, s2, rfl, ?_, h1, h2⟩
          exact .step id b0 false (.inl h3) hb0 (by omega) h7 hw1 (.reopen 128 o hop
            (.step id b1 true (.inl h4) hb1 (by omega) h8 hw2 (.refl _)))
        · cases h
      · cases h
    · cases h

/-! ### C48: writing with the wrong key -/

/-- **C48**, the part that holds: a handle opened with a wrong key (stream `S'`) may write any number of records; as long
as no write compacts, and none of the new records happens to authenticate under the right key, opening with the right
key shows exactly what it showed before. -/
theorem C48_partial {C : Cipher} {page : Nat} {i j : Bytes × Bytes} {file : Bytes} {s sw : Inst (Bytes × Bytes)} {S0 : Store} {ws' : WState}
    (hne : file ≠ []) (hright : openAt (encrypted C) i page file = some s) (hS0 : s.Shows S0)
    (hwrong : openAt (encrypted C) j page file = some sw) (hw : Appending ⟨C, j.1, j.2⟩ sw.lp.cb.ws ws')
    (hno : ∀ cts cts', cipherTexts file = some cts → cipherTexts ws'.file = some cts' →
      ∀ n ct, cts.length ≤ n → cts'[n]? = some ct → C.decrypt i.1 i.2 n ct = none) :
    ∃ s2, openAt (encrypted C) i page ws'.file = some s2 ∧ s2.Shows S0 := by
  obtain ⟨hr, cts, more, h1, h2⟩ := appending_cts hw (encAtRest_open hwrong)
  have hlen : file.length ≠ 0 := by simpa using hne
  have hf0 : sw.lp.cb.ws.file = file := by
    have := C22_open_close hwrong (rfl : run (encrypted C) sw [] = some (sw, [])) rfl
    rw [if_neg hne] at this
    simpa [disk, (resting_open hwrong).removed] using this
  rw [hf0] at h1
  obtain ⟨cts0, hc0, s0, ho0, hkv0⟩ := opens_under_any (j := i) hright
  simp only [configNew, hlen, if_false] at hc0
  rw [h1] at hc0
  injection hc0 with hc0
  subst hc0
  rw [hright] at ho0
  injection ho0 with ho0
  subst ho0
  obtain ⟨content, items, hv⟩ := hr.valid
  have hlen' : ws'.file.length ≠ 0 := by have := hv.holds.len; omega
  obtain ⟨cts1, hc1, _, hit⟩ := holds_cts hv.holds hv.framed
  -- it opens
  obtain ⟨sx, hox⟩ : ∃ sx, openAt (encrypted C) j page ws'.file = some sx := by
    have hrd : ({ file := ws'.file, mmLen := ws'.file.length, page := page, position := 0, needTrim := false } : WState).readItems
        (encrypted C j) = some items :=
      readItems_eq (c := aeadCodec ⟨C, j.1, j.2⟩) (s := ⟨ws'.file, ws'.file.length, page, items.length, false, 8, none, []⟩)
        ⟨rfl, rfl, hv.holds, hv.framed, rfl⟩
    unfold openAt openStore
    simp only [configNew, hlen', if_false, hrd]
    exact ⟨_, rfl⟩
  obtain ⟨cts2, hc2, s2, ho2, hkv2⟩ := opens_under_any (j := i) hox
  simp only [configNew, hlen', if_false] at hc2
  rw [h2] at hc2
  injection hc2 with hc2
  refine ⟨s2, ho2, ?_⟩
  apply shows_of_view ho2
  rw [← (shows_open hright).1 hS0, hkv2, hkv0, ← hc2]
  have hmap : ((cts ++ more).mapIdx fun n ct => decodeCt ⟨C, i.1, i.2⟩ n ct) =
      (cts.mapIdx fun n ct => decodeCt ⟨C, i.1, i.2⟩ n ct) ++ List.replicate more.length none := by
    rw [List.mapIdx_append]
    congr 1
    apply List.ext_getElem?
    intro n
    rw [List.getElem?_mapIdx, List.getElem?_replicate]
    by_cases hn : n < more.length
    · rw [List.getElem?_eq_getElem hn, if_pos hn]
      have := hno cts (cts ++ more) h1 h2 (n + cts.length) more[n] (by omega) (by
        rw [List.getElem?_append_right (by omega), Nat.add_sub_cancel, List.getElem?_eq_getElem hn])
      simp [decodeCt, Stream.decrypt, this]
    · rw [List.getElem?_eq_none (by omega), if_neg hn]; rfl
  have hfold : ∀ (m : KvMap Buffer) n, (List.replicate n (none : Option Buffer)).foldl mapStep m = m := by
    intro m n
    induction n with
    | zero => rfl
    | succ n ih => rw [List.replicate_succ, List.foldl_cons]; exact ih
  rw [hmap]
  simp only [intoMap, List.foldl_append, hfold]

/-- **C48 is false of this program**: a compaction under the wrong key erases everything the right key could read.  For
every cipher: if no record authenticates under the wrong stream `S'` and a write through it compacts, then after the
write the file holds just that one record. -/
theorem C48_refuted {S' : Stream} {s : WState} {content : Bytes} {items : List (Option Buffer)}
    (hv : Valid (aeadCodec S') s content items) (hnone : ∀ b, some b ∉ items) (hq : s.quota = none)
    {b : Buffer} (hb : aeadOk b) (hdel : b.isDeleting = false) (hbl : aeadLen b ≤ s.page) {dup : Bool}
    (hfull : s.file.length < content.length + 8 + aeadLen b) (htrim : (s.needTrim || dup) = true)
    (hb1 : content.length + aeadLen b + 8 < 2 ^ 64) (hpos : items.length + 1 < 2 ^ 32 - 1)
    (order : Order) (ho : ∀ l, (order l).Perm l) :
    ∃ s', s.write (aeadCodec S') order b dup = .done s' ∧ (cipherTexts s'.file).map List.length = some 1 := by
  have hall : ∀ b', some b' ∈ items ++ [some b] → b' = b := by
    intro b' hb'
    rcases List.mem_append.1 hb' with h | h
    · exact absurd h (hnone b')
    · simpa using h
  have hrs : recSum aeadLen items = 0 := by
    have : items.filterMap id = [] := by
      rw [List.filterMap_eq_nil_iff]
      intro o hm
      cases o with
      | none => rfl
      | some b' => exact absurd hm (hnone b')
    simp [recSum, sumLen, this]
  obtain ⟨s', content', items', hw, hv', _, hshape, _⟩ := write_core (aead_lawful S') order ho b dup hv hq
    (by intro b' hb'; rw [hall b' hb']; exact hb) (.inl (by intro b' hb'; rw [hall b' hb']; exact hbl)) hb1
    (fun _ => by omega) hpos
  refine ⟨s', hw, ?_⟩
  obtain ⟨cts, hc, _, hi'⟩ := holds_cts hv'.holds hv'.framed
  have hempty : (intoMap items).1 = [] := by
    have : items = List.replicate items.length none := by
      rw [List.eq_replicate_iff]
      refine ⟨rfl, ?_⟩
      intro o hm
      cases o with
      | none => rfl
      | some b' => exact absurd hm (hnone b')
    rw [this]
    exact foldl_mapStep_none _
  have hit : items' = [some b] := by
    cases hshape with
    | append hfit => omega
    | expand _ hnt => rw [htrim] at hnt; cases hnt
    | trim _ _ hi =>
      rw [hi, hempty]
      have : (mapStep [] (some b)).values = [b] := by simp [mapStep, hdel, KvMap.insert, KvMap.erase, KvMap.values]
      rw [this, List.perm_singleton.1 (ho [b])]
      rfl
  rw [hc]
  have := congrArg List.length hi'
  rw [hit] at this
  simp only [List.length_mapIdx, List.length_cons, List.length_nil] at this
  simp [← this]

/-- **C48 is false of this program**, end to end (toy cipher): the first session of `demoEnc` stores "a" and "b"; the second
uses a key that differs in one digit and puts a string twice; then the right key shows an empty store. -/
theorem C48_refuted_end_to_end :
    ((encLifeRun toy 80 EncDir.fresh (demoEnc.take 1 ++
      [{ key := "88C51C536176AD8A8EE4A06F62EE897F", rand := nonce1, clean := true,
         evs := encPut (testKeyBytes.set 15 127, nonce1) "x" 1 (List.replicate 30 1) ++
           encPut (testKeyBytes.set 15 127, nonce1) "x" 1 (List.replicate 30 2) ++ encClose }])).map fun p =>
      (p.1, (openEnc toy 80 testKey nonce1 p.2).map fun s => s.kv)) =
    some ([[.ok (), .ok (), .ok ()], [.ok (), .ok ()]], some []) := by decide +kernel

/-! ### C49: which keys are accepted -/

/-- A hexadecimal digit. -/
def isHex (b : UInt8) : Bool := (48 ≤ b.toNat && b.toNat ≤ 57) || (65 ≤ b.toNat && b.toNat ≤ 70) || (97 ≤ b.toNat && b.toNat ≤ 102)

theorem hexDigit_isSome (b : UInt8) : (hexDigit b).isSome = isHex b := by
  unfold hexDigit isHex
  split
  · rename_i h; simp [h.1, h.2]
  split
  · rename_i h; simp [h.1, h.2]
  split
  · rename_i h; simp [h.1, h.2]
  · rename_i h1 h2 h3
    simp only [Option.isSome_none]
    rcases Nat.lt_or_ge b.toNat 48 with h | h
    · simp; omega
    · simp; omega

theorem hexDecode_some : ∀ (bs k : Bytes), hexDecode bs = some k → bs.length = 2 * k.length ∧ ∀ b ∈ bs, isHex b = true
  | [], k, h => by simp only [hexDecode, Option.some.injEq] at h; subst h; simp
  | [_], k, h => by simp [hexDecode] at h
  | a :: b :: rest, k, h => by
    unfold hexDecode at h
    split at h
    · rename_i x y r hx hy hr
      injection h with h
      subst h
      obtain ⟨h1, h2⟩ := hexDecode_some rest r hr
      refine ⟨by simp; omega, ?_⟩
      intro c hc
      rcases List.mem_cons.1 hc with rfl | hc
      · rw [← hexDigit_isSome, hx]; rfl
      rcases List.mem_cons.1 hc with rfl | hc
      · rw [← hexDigit_isSome, hy]; rfl
      · exact h2 c hc
    · cases h

theorem hexDecode_of_hex : ∀ (n : Nat) (bs : Bytes), bs.length = 2 * n → (∀ b ∈ bs, isHex b = true) → ∃ k, hexDecode bs = some k ∧ k.length = n
  | 0, bs, h, _ => by
    have : bs = [] := List.length_eq_zero_iff.1 (by omega)
    subst this
    exact ⟨[], rfl, rfl⟩
  | n + 1, [], h, _ => by simp at h
  | n + 1, [_], h, _ => by simp at h; omega
  | n + 1, a :: b :: rest, h, hx => by
    obtain ⟨r, hr, hl⟩ := hexDecode_of_hex n rest (by simp at h; omega) (fun c hc => hx c (by simp [hc]))
    have ha := hx a (by simp)
    have hb := hx b (by simp)
    rw [← hexDigit_isSome] at ha hb
    obtain ⟨x, hx⟩ := Option.isSome_iff_exists.1 ha
    obtain ⟨y, hy⟩ := Option.isSome_iff_exists.1 hb
    exact ⟨UInt8.ofNat (16 * x + y) :: r, by simp [hexDecode, hx, hy, hr], by simp [hl]⟩

/-- **C49.** On a fresh directory `new` accepts a key exactly if it is 32 hexadecimal digits; every other string makes it
panic. -/
theorem C49_keys (C : Cipher) {page : Nat} (h8 : 8 ≤ page) (key : String) (rand : Bytes) :
    (openEnc C page key rand EncDir.fresh).isSome = true ↔
      (strBytes key).length = 32 ∧ ∀ b ∈ strBytes key, isHex b = true := by
  constructor
  · intro h
    unfold openEnc encryptorInit at h
    cases hk : decodeKey key with
    | none => simp [hk] at h
    | some k =>
      unfold decodeKey at hk
      split at hk
      · cases hk
      · rename_i k' hd
        split at hk
        · rename_i hl
          obtain ⟨h1, h2⟩ := hexDecode_some _ _ hd
          exact ⟨by omega, h2⟩
        · cases hk
  · rintro ⟨h1, h2⟩
    obtain ⟨k, hk, hl⟩ := hexDecode_of_hex 16 (strBytes key) (by omega) h2
    have hd : decodeKey key = some k := by simp [decodeKey, hk, hl]
    rw [openEnc_eq hd]
    obtain ⟨s, hs, _⟩ := C22_fresh_empty (encrypted C) (k, initNonce EncDir.fresh.nonceFile rand) page h8
    exact Option.isSome_iff_exists.2 ⟨s, hs⟩

/-- The documentation of `new` (src/mmkv.rs:64-65) asks for "a hexadecimal string of length 16"; no string of length 16
works. -/
theorem C49_documented_length_panics (C : Cipher) (page : Nat) (key : String) (rand : Bytes) (d : EncDir)
    (h : (strBytes key).length = 16) : openEnc C page key rand d = none := by
  unfold openEnc encryptorInit
  cases hk : decodeKey key with
  | none => rfl
  | some k =>
    unfold decodeKey at hk
    split at hk
    · cases hk
    · rename_i k' hd
      split at hk
      · obtain ⟨h1, _⟩ := hexDecode_some _ _ hd
        omega
      · cases hk

example : (strBytes testKey).length = 32 ∧ (∀ b ∈ strBytes testKey, isHex b = true) := by decide +kernel
example : (strBytes "88C51C536176AD8A").length = 16 := by decide +kernel

/-! ### C50: running out of counters -/

/-- **C50 is false of this program**: with `2^32 - 1` records in an encrypted file, every further put or delete panics in
the background - also one that would compact the file, because the record is encrypted before the compaction is
considered (src/core/writer.rs:40-43).  The file is left as it was. -/
theorem C50_refuted (S : Stream) (order : Order) (b : Buffer) (dup : Bool) (s : WState) (h : s.position = 2 ^ 32 - 1) :
    s.write (aeadCodec S) order b dup = .panic s := by
  unfold WState.write
  have : (aeadCodec S).enc b s.position = none := by
    simp only [aeadCodec, aeadEnc, Stream.encrypt, counterMax, h, if_true]
  rw [this]

/-- **C50**, the part that holds: up to then the counter is no obstacle. -/
theorem C50_partial (S : Stream) (b : Buffer) (position : Nat) (h : position < 2 ^ 32 - 1) (hlen : (kvToBytes b).length + 12 < 2 ^ 32) :
    ((aeadCodec S).enc b position).isSome = true := by
  obtain ⟨r, h1, _⟩ := (aead_lawful S).enc_dec b position hlen h
  rw [h1]; rfl

end Mmkv
