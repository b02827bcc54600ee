import Verif.Lemmas.EncWorld
/-!
# C87 with the `encryption` feature
-/

namespace Mmkv
open Spec World

/-- What an encrypted directory holds before the process starts: opened alone with its key it shows the map `S`, whatever `OsRng` yields (so there is a usable
nonce file, or no data); its records fit a page; and it is at most `K` bytes long. -/
structure EncFileMap (C : Cipher) (page K : Nat) (key : String) (d : EncDir) (S : Store) : Prop where
  opens : ∀ rand : Bytes, rand.length = 11 → ∃ s, openEnc C page key rand d = some s ∧ s.Shows S
  fits : ∀ (rand k : Bytes) (items : List (Option Buffer)), rand.length = 11 → decodeKey key = some k →
    fileRecords (encrypted C (k, initNonce d.nonceFile rand)) d.file = some items → ∀ b, some b ∈ items → encRecordSize b.key b.type b.value ≤ page
  small : d.file.length ≤ K

/-- The encrypted records of the calls of the history fit a page. -/
def EncCallsFit (page : Nat) (h : List (HEv POp PRes)) : Prop :=
  ∀ (t k : Nat) (d : String) (m : Mutation), .inv t (.on k d (.mut m)) ∈ h →
    match m with
    | .put key e => encRecordSize key e.token e.bytes ≤ page
    | .delete key => encRecordSize key deletedToken [] ≤ page
    | .clear => True

theorem encFits_evOf {page : Nat} {m : Mutation} (h : match m with
    | .put key e => encRecordSize key e.token e.bytes ≤ page
    | .delete key => encRecordSize key deletedToken [] ≤ page
    | .clear => True) : (evOf m : Ev (Bytes × Bytes)).EncFits [] page := by
  cases m with
  | put k e => exact h
  | delete k => exact h
  | clear => trivial

theorem EncFileMap.good {C : Cipher} {page K : Nat} {h8 : 8 ≤ page} (h32 : page < 2 ^ 32) {key : String} {d : EncDir} {S : Store} (h : EncFileMap C page K key d S)
    {k : Bytes} (hk : decodeKey key = some k) {rand : Bytes} (hr : rand.length = 11) :
    GoodFile (encEnv C page h8 True) (encrypted C (k, initNonce d.nonceFile rand)) K d.file S := by
  obtain ⟨s, hs, hsh⟩ := h.opens rand hr
  have hs : Inst.openAt (encrypted C) (k, initNonce d.nonceFile rand) page d.file = some s := by
    simpa [openEnc, encryptorInit, hk] using hs
  have hv := (Inst.shows_open hs).1 hsh
  have hfit := h.fits rand k
  have hsm := h.small
  generalize d.file = file at hs hfit hsm
  by_cases hne : file = []
  · subst hne
    unfold Inst.openAt at hs
    split at hs
    · cases hs
    · rename_i o ho
      injection hs with hs; subst hs
      rw [← hv, openStore_nil_kv ho, view_nil]
      exact .empty
  · unfold Inst.openAt at hs
    split at hs
    · cases hs
    · rename_i o ho
      injection hs with hs; subst hs
      unfold openStore at ho
      have hlen : file.length ≠ 0 := by simpa using hne
      simp only [configNew, hlen, if_false] at ho
      split at ho
      · cases ho
      · rename_i items hi
        injection ho with ho; subst ho
        obtain ⟨_, content, hh, hf⟩ := readItems_inv (aead_lawful ⟨C, k, initNonce d.nonceFile rand⟩) rfl hi
        have hi' : fileRecords (encrypted C (k, initNonce d.nonceFile rand)) file = some items := by
          unfold fileRecords; exact hi
        have hl : content.length + 8 ≤ file.length := hh.len
        have hh : Holds file content := hh
        rw [← hv]
        show GoodFile _ _ _ _ (view (intoMap items).1)
        rw [view_intoMap]
        refine .held hh hf ?_ (.inl ⟨trivial, ?_⟩) ?_ ?_ (fun _ => trivial)
        · intro b hb
          have := hfit items hr hk hi' b hb
          simp only [encRecordSize] at this
          show (kvToBytes b).length + 12 < 2 ^ 32
          have e : (⟨b.key, b.type, b.value⟩ : Buffer) = b := rfl
          rw [e] at this
          omega
        · intro b hb
          have := hfit items hr hk hi' b hb
          simp only [encRecordSize] at this
          show (kvToBytes b).length + 12 ≤ page
          have e : (⟨b.key, b.type, b.value⟩ : Buffer) = b := rfl
          rw [e] at this
          omega
        · have := framed_length hf; omega
        · have h1 : 1 * content.length ≤ page * content.length := Nat.mul_le_mul_right _ (by omega)
          have h2 : page * content.length ≤ page * K := Nat.mul_le_mul_left _ (by omega)
          simp only [encEnv]; omega

/-- A missing file holds the empty map under any codec. -/
theorem GoodFile.nil_any {ι : Type} {E : Env ι} {c c' : Codec} {K : Nat} {file : Bytes} {S : Store} (h : GoodFile E c K file S) (hf : file = []) : GoodFile E c' K file S := by
  cases h with
  | empty => exact .empty
  | held hh _ _ _ _ _ _ =>
    have := hh.len
    subst hf
    simp at this

section
variable {C : Cipher} {page K : Nat} {h8 : 8 ≤ page} {fileOf : String → Nat} {dirOk : String → Bool} {keys : Nat → String} {n0 : Nat → Option Bytes} {S0 : Nat → Store}

/-- The steps of the encrypted process are keyed. -/
theorem enc_keyed {s : EncThreads} {h : List (HEv POp PRes)} {L : List (Nat × POp × PRes)} {p : SeqProc} {cs : Nat → List Mutation}
    (hkeys : ∀ f, (decodeKey (keys f)).isSome = true)
    (hi : Proc.PInv (encEnv C page h8 True) (encProcess C page fileOf dirOk) (StartIdx keys n0) K S0 s.p h L p cs) (hn : NInv (encProcess C page fileOf dirOk) keys n0 s.nonces s.p.w)
    (ha : Apart h) (ho : OneSpelling fileOf h) {e : PrEv Bytes} (hr : ∀ t rand, e = .go t rand → rand.length = 11) :
    Proc.PrKeyed (encProcess C page fileOf dirOk) (StartIdx keys n0) s.p (s.event (encProcess C page fileOf dirOk) keys e) := by
  cases e with
  | go t rand =>
    have hrand : rand.length = nonceLen := hr t rand rfl
    simp only [EncThreads.event]
    constructor
    · intro d ht hu
      have : s.idx (encProcess C page fileOf dirOk) keys (.go t rand) = openIdx keys s.nonces (fileOf d) rand := by
        simp only [EncThreads.idx, Proc.worldEv, ht]; rfl
      rw [this]
      exact ⟨keyOk_openIdx hkeys _ _, hn.keyed hi.base (Proc.calm_of_apart hi ha ho ht ([], []) hu) hrand⟩
    · intro k d m ht
      obtain ⟨hd, hk, _⟩ := hi.thr.dir t _ _ k d ht rfl
      obtain ⟨ob, hob, _⟩ := hi.base.reg.hobj hk
      have : s.idx (encProcess C page fileOf dirOk) keys (.go t rand) = openIdx keys s.nonces (fileOf ob.dir) rand := by
        simp only [EncThreads.idx, Proc.worldEv, ht, hk, Option.map_some, WEv.openIdx, hob]; rfl
      rw [this]
      exact keyOk_openIdx hkeys _ _
  | call t op => trivial
  | ret t => trivial
  | io o ord => trivial

/-- One step. -/
theorem enc_step {s s' : EncThreads} {h : List (HEv POp PRes)} {L : List (Nat × POp × PRes)} {p : SeqProc} {cs : Nat → List Mutation}
    {e : PrEv Bytes} {v : Option (HEv POp PRes)} (h32 : page < 2 ^ 32) (hkeys : ∀ f, (decodeKey (keys f)).isSome = true)
    (hi : Proc.PInv (encEnv C page h8 True) (encProcess C page fileOf dirOk) (StartIdx keys n0) K S0 s.p h L p cs) (hn : NInv (encProcess C page fileOf dirOk) keys n0 s.nonces s.p.w)
    (hroom : ∀ f, (encEnv C page h8 True).Room (K + (cs f).length)) (ha : Apart (h ++ v.toList)) (ho : OneSpelling fileOf (h ++ v.toList))
    (hfit : EncCallsFit page (h ++ v.toList)) (hio : ∀ o ord, e = .io o ord → ∀ l, (ord l).Perm l) (hr : ∀ t rand, e = .go t rand → rand.length = 11)
    (hs : s.step (encProcess C page fileOf dirOk) keys e = some (s', v)) :
    ∃ L' p' cs', Proc.PInv (encEnv C page h8 True) (encProcess C page fileOf dirOk) (StartIdx keys n0) K S0 s'.p (h ++ v.toList) L' p' cs' ∧
      NInv (encProcess C page fileOf dirOk) keys n0 s'.nonces s'.p.w ∧ ∀ f, (cs' f).length ≤ (cs f).length + 1 := by
  unfold EncThreads.step at hs
  split at hs
  · cases hs
  rename_i p1 v1 hst
  injection hs with hs; injection hs with h1 h2; subst h1 h2
  have ha0 : Apart h := ha.left
  have ho0 : OneSpelling fileOf h := fun t u d e h1 h2 hf => ho t u d e (List.mem_append_left _ h1) (List.mem_append_left _ h2) hf
  have hkey := enc_keyed hkeys hi hn ha0 ho0 hr
  obtain ⟨L', p', cs', hp', hl⟩ := Proc.pinv_step (S := encProcess C page fileOf dirOk) rfl rfl hkey hi hroom ha ho
    (fun t k d m hm => (encFits_evOf (hfit t k d m hm)).ok h32)
    (by
      intro o ord he
      cases e with
      | io o' ord' =>
        simp only [EncThreads.event, PrEv.io.injEq] at he
        obtain ⟨rfl, rfl⟩ := he
        exact hio _ _ rfl
      | _ => cases he) hst
  refine ⟨L', p', cs', hp', ?_, hl⟩
  have hev := Proc.worldEv_step (S := encProcess C page fileOf dirOk) (e := e) (i := s.idx (encProcess C page fileOf dirOk) keys e) (by cases e <;> rfl) hst
  rcases hev with ⟨hw, hsame⟩ | ⟨we, r, hw, hstep⟩
  · simp only [hw]
    exact ninv_same hn (by rw [hsame])
  · simp only [hw]
    have hidx : s.idx (encProcess C page fileOf dirOk) keys e = we.openIdx (encProcess C page fileOf dirOk) keys s.nonces s.p.w := by
      unfold EncThreads.idx; rw [hw]
    rw [hidx] at hstep
    refine ninv_step (E := encEnv C page h8 True) rfl rfl hkeys hn hi.base ?_ ?_ hstep ?_
    · cases e with
      | go t rand =>
        have hrand : rand.length = nonceLen := hr t rand rfl
        simp only [Proc.worldEv] at hw
        split at hw
        all_goals first
          | (injection hw with hw; subst hw; first | exact trivial | exact hrand)
          | (rw [Option.map_eq_some_iff] at hw; obtain ⟨_, _, rfl⟩ := hw; exact hrand)
          | cases hw
      | io o ord => injection hw with hw; subst hw; trivial
      | call t op => cases hw
      | ret t => cases hw
    · cases e with
      | go t rand =>
        simp only [Proc.worldEv] at hw
        split at hw
        all_goals first
          | (injection hw with hw; subst hw; exact trivial)
          | (rename_i d ht; injection hw with hw; subst hw; exact Proc.calm_of_apart hi ha0 ho0 ht _)
          | (rw [Option.map_eq_some_iff] at hw; obtain ⟨_, _, rfl⟩ := hw; exact trivial)
          | cases hw
      | io o ord => injection hw with hw; subst hw; exact trivial
      | call t op => cases hw
      | ret t => cases hw
    · intro o rand he x hx
      subst he
      have hk : (WEv.cont o (WEv.openIdx (encProcess C page fileOf dirOk) keys s.nonces s.p.w (.cont o rand))).Keyed (encProcess C page fileOf dirOk) (StartIdx keys n0) s.p.w := by
        have hob : ∃ ob, s.p.w.objs[o]? = some ob := by
          simp only [WEv.at, World.step] at hstep
          split at hstep
          · cases hstep
          · exact ⟨_, by assumption⟩
        obtain ⟨ob, hob⟩ := hob
        show (encProcess C page fileOf dirOk).keyOk _ = true
        simp only [WEv.openIdx, hob]
        exact keyOk_openIdx hkeys _ _
      exact (base_step (E := encEnv C page h8 True) (S := encProcess C page fileOf dirOk) rfl rfl hk hi.base trivial trivial (by simp) hroom hstep).1 x hx

/-- A whole schedule. -/
theorem enc_run (h32 : page < 2 ^ 32) (hkeys : ∀ f, (decodeKey (keys f)).isSome = true) (es : List (PrEv Bytes)) :
    ∀ {s s' : EncThreads} {h h' : List (HEv POp PRes)} {L : List (Nat × POp × PRes)} {p : SeqProc} {cs : Nat → List Mutation},
    Proc.PInv (encEnv C page h8 True) (encProcess C page fileOf dirOk) (StartIdx keys n0) K S0 s.p h L p cs → NInv (encProcess C page fileOf dirOk) keys n0 s.nonces s.p.w →
    (∀ f, (encEnv C page h8 True).Room (K + (cs f).length + es.length)) → Apart (h ++ h') → OneSpelling fileOf (h ++ h') → EncCallsFit page (h ++ h') →
    (∀ o ord, .io o ord ∈ es → ∀ l, (ord l).Perm l) → (∀ t rand, .go t rand ∈ es → rand.length = 11) →
    s.run (encProcess C page fileOf dirOk) keys es = some (s', h') →
    ∃ L' p' cs', Proc.PInv (encEnv C page h8 True) (encProcess C page fileOf dirOk) (StartIdx keys n0) K S0 s'.p (h ++ h') L' p' cs' ∧
      NInv (encProcess C page fileOf dirOk) keys n0 s'.nonces s'.p.w := by
  induction es with
  | nil =>
    intro s s' h h' L p cs hi hn _ _ _ _ _ _ hs
    simp only [EncThreads.run, Option.some.injEq, Prod.mk.injEq] at hs
    obtain ⟨rfl, rfl⟩ := hs
    exact ⟨L, p, cs, by simpa using hi, hn⟩
  | cons e es ih =>
    intro s s' h h' L p cs hi hn hroom ha ho hfit hio hr hs
    simp only [EncThreads.run] at hs
    split at hs
    · cases hs
    rename_i s1 v hst
    split at hs
    · cases hs
    rename_i s2 h2 hrun
    simp only [Option.some.injEq, Prod.mk.injEq] at hs
    obtain ⟨rfl, rfl⟩ := hs
    rw [← List.append_assoc] at ha ho hfit ⊢
    obtain ⟨L1, p1, cs1, h1, hn1, hl⟩ := enc_step h32 hkeys hi hn (fun f => (hroom f).mono (by omega)) ha.left
      (fun t u d e h1 h2 hf => ho t u d e (List.mem_append_left _ h1) (List.mem_append_left _ h2) hf)
      (fun t k d m hm => hfit t k d m (List.mem_append_left _ hm)) (fun o ord he => hio o ord (by rw [he]; exact List.mem_cons_self))
      (fun t rand he => hr t rand (by rw [he]; exact List.mem_cons_self)) hst
    exact ih h1 hn1 (fun f => (hroom f).mono (by have := hl f; simp only [List.length_cons]; omega)) ha ho hfit
      (fun o ord hm => hio o ord (List.mem_cons_of_mem _ hm)) (fun t rand hm => hr t rand (List.mem_cons_of_mem _ hm)) hrun

/-- The key and nonce whoever opens the directory next uses are right for its file, if it has one. -/
theorem enc_next {s : EncThreads} {h : List (HEv POp PRes)} {L : List (Nat × POp × PRes)} {p : SeqProc} {cs : Nat → List Mutation}
    (hi : Proc.PInv (encEnv C page h8 True) (encProcess C page fileOf dirOk) (StartIdx keys n0) K S0 s.p h L p cs) (hn : NInv (encProcess C page fileOf dirOk) keys n0 s.nonces s.p.w)
    {f : Nat} {rand : Bytes} (hr : rand.length = nonceLen) (hf : s.p.w.fileAt f ≠ none) :
    Keyed (encProcess C page fileOf dirOk) (StartIdx keys n0) s.p.w f (openIdx keys s.nonces f rand) := by
  refine ⟨fun h => ⟨rand, hr, by rw [openIdx, openIdx, hn.unused f h]⟩, fun o ob ho hof hl => ?_⟩
  subst hof
  obtain ⟨h1, h2, h3⟩ := hn.last o ob ho hl
  have hnr : ob.inst.lp.cb.removed = false := by
    rcases hi.base.file ((encProcess C page fileOf dirOk).fileOf ob.dir) with ⟨g, _⟩ | ⟨q, x, pre, post, g1, g2, g3, g4, g5, g6, g7⟩
    · exact absurd rfl (g o ob ho)
    · by_cases hop : o = q
      · subst hop
        rw [ho] at g1; injection g1 with g1; subst g1
        cases hr0 : ob.inst.lp.cb.removed with
        | false => rfl
        | true => rw [hr0] at g7; simp [fileAt, g7] at hf
      · have := (g3 o ob hop ho rfl).2
        have := hl q x g1 g2
        omega
  rw [hnr] at h3
  rw [openIdx, h1, h3]
  simp only [Bool.false_eq_true, if_false, initNonce_some h2, Option.getD_some]

/-- The process at the start. -/
theorem enc_pinv_good (h8 : 8 ≤ page) (h32 : page < 2 ^ 32) (hkeys : ∀ f, (decodeKey (keys f)).isSome = true) {names : Nat → Option Nat} {inodes : List Bytes} (hg : GoodNames names inodes)
    (h0 : ∀ (f : Nat) (rand : Bytes), rand.length = 11 → GoodFile (encEnv C page h8 True) (encrypted C (openIdx keys n0 f rand)) K (((start names inodes : World (Bytes × Bytes)).fileAt f).getD []) (S0 f))
    {es : List (PrEv Bytes)} {s : EncThreads} {h : List (HEv POp PRes)} (hrun : EncThreads.run (encProcess C page fileOf dirOk) keys ⟨{ w := start names inodes }, n0⟩ es = some (s, h))
    (hrand : ∀ t rand, .go t rand ∈ es → rand.length = 11) (hfit : EncCallsFit page h) (hio : ∀ o ord, .io o ord ∈ es → ∀ l, (ord l).Perm l)
    (hapart : Apart h) (hone : OneSpelling fileOf h) (hroom : page * (K + es.length) + 8 < 2 ^ 64) (hctr : K + es.length < 2 ^ 32 - 1) :
    ∃ L p cs, Proc.PInv (encEnv C page h8 True) (encProcess C page fileOf dirOk) (StartIdx keys n0) K S0 s.p h L p cs ∧
      NInv (encProcess C page fileOf dirOk) keys n0 s.nonces s.p.w := by
  have hstart : Proc.PInv (encEnv C page h8 True) (encProcess C page fileOf dirOk) (StartIdx keys n0) K S0 { w := start names inodes } [] [] { maps := S0 } (fun _ => []) := by
    refine ⟨⟨.nil _ _, ?_, ?_, by simp⟩, ?_, ⟨Reg.start _ hg.exist hg.inj, fun f => .inl ⟨by simp [start], ?_⟩, by simp [start], by simp [start]⟩,
      ⟨by simp [start], by simp [start], ?_, by simp, ?_⟩, rfl, rfl, rfl, fun _ => rfl⟩
    · rintro t op ⟨st, h1, _⟩; cases h1
    · rintro t r ⟨op, st, h1, _⟩; cases h1
    · intro t op st h1; cases h1
    · rintro i ⟨rand, hr, rfl⟩
      exact h0 f rand hr
    · intro t op st k d h1; cases h1
    · intro t k d key tok h1; cases h1
  have hnst : NInv (encProcess C page fileOf dirOk) keys n0 n0 (start names inodes) := ⟨fun _ _ => rfl, by simp [start]⟩
  obtain ⟨L, p, cs, hi, hn⟩ := enc_run h32 hkeys es (s := ⟨{ w := start names inodes }, n0⟩) hstart hnst
    (fun f => ⟨by simpa [encEnv] using hroom, by simpa [encEnv, aeadPos, counterMax] using hctr⟩) (by simpa using hapart) (by simpa using hone)
    (by simpa using hfit) hio hrand hrun
  exact ⟨L, p, cs, by simpa using hi, hn⟩

theorem enc_pinv (h8 : 8 ≤ page) (h32 : page < 2 ^ 32) (hkeys : ∀ f, (decodeKey (keys f)).isSome = true) {names : Nat → Option Nat} {inodes : List Bytes} (hg : GoodNames names inodes)
    (h0 : ∀ f, EncFileMap C page K (keys f) (EncThreads.dir ⟨{ w := start names inodes }, n0⟩ f) (S0 f))
    {es : List (PrEv Bytes)} {s : EncThreads} {h : List (HEv POp PRes)} (hrun : EncThreads.run (encProcess C page fileOf dirOk) keys ⟨{ w := start names inodes }, n0⟩ es = some (s, h))
    (hrand : ∀ t rand, .go t rand ∈ es → rand.length = 11) (hfit : EncCallsFit page h) (hio : ∀ o ord, .io o ord ∈ es → ∀ l, (ord l).Perm l)
    (hapart : Apart h) (hone : OneSpelling fileOf h) (hroom : page * (K + es.length) + 8 < 2 ^ 64) (hctr : K + es.length < 2 ^ 32 - 1) :
    ∃ L p cs, Proc.PInv (encEnv C page h8 True) (encProcess C page fileOf dirOk) (StartIdx keys n0) K S0 s.p h L p cs ∧
      NInv (encProcess C page fileOf dirOk) keys n0 s.nonces s.p.w := by
  refine enc_pinv_good h8 h32 hkeys hg (fun f rand hr => ?_) hrun hrand hfit hio hapart hone hroom hctr
  obtain ⟨k, hk⟩ := Option.isSome_iff_exists.1 (hkeys f)
  have := (h0 f).good (h8 := h8) h32 hk hr
  rw [openIdx, hk]
  exact this

end

/-- **C87**, with the `encryption` feature: the same, when every directory has a valid key, its file (if it has one) opens with it, and at most `2^32 - 2` steps are
taken.  The nonce of each directory is drawn, stored, read again and removed as the code does it; whatever `OsRng` yields, what the threads observe is
linearizable as a whole. -/
theorem C87_encrypted_linearizable {C : Cipher} {page K : Nat} (h8 : 8 ≤ page) (h32 : page < 2 ^ 32) {fileOf : String → Nat} {dirOk : String → Bool} {keys : Nat → String}
    (hkeys : ∀ f, (decodeKey (keys f)).isSome = true) {names : Nat → Option Nat} {inodes : List Bytes} (hg : GoodNames names inodes)
    {n0 : Nat → Option Bytes} {S0 : Nat → Store} (h0 : ∀ f, EncFileMap C page K (keys f) (EncThreads.dir ⟨{ w := start names inodes }, n0⟩ f) (S0 f))
    {es : List (PrEv Bytes)} {s : EncThreads} {h : List (HEv POp PRes)} (hrun : EncThreads.run (encProcess C page fileOf dirOk) keys ⟨{ w := start names inodes }, n0⟩ es = some (s, h))
    (hrand : ∀ t rand, .go t rand ∈ es → rand.length = 11) (hfit : EncCallsFit page h) (hio : ∀ o ord, .io o ord ∈ es → ∀ l, (ord l).Perm l)
    (hapart : Apart h) (hone : OneSpelling fileOf h) (hroom : page * (K + es.length) + 8 < 2 ^ 64) (hctr : K + es.length < 2 ^ 32 - 1) :
    Linearizable (SeqBehaves dirOk fileOf) { maps := S0 } h := by
  obtain ⟨L, p, cs, hi, _⟩ := enc_pinv h8 h32 hkeys hg h0 hrun hrand hfit hio hapart hone hroom hctr
  exact ⟨L, p, hi.hist.lin⟩

/-- **C87**, with the `encryption` feature, and what the files hold: as `C87_saved`.  If the process dies at any moment between two background writes, the
directory opened with its key - whatever `OsRng` yields then, and, should the data file be missing, whatever is left of the nonce file (the two
are removed one after the other) - shows the map after some first part of the calls on it, in the order of C87; after all of them, if the drops of its
handles have returned. -/
theorem C87_encrypted_saved {C : Cipher} {page K : Nat} (h8 : 8 ≤ page) (h32 : page < 2 ^ 32) {fileOf : String → Nat} {dirOk : String → Bool} {keys : Nat → String}
    (hkeys : ∀ f, (decodeKey (keys f)).isSome = true) {names : Nat → Option Nat} {inodes : List Bytes} (hg : GoodNames names inodes)
    {n0 : Nat → Option Bytes} {S0 : Nat → Store} (h0 : ∀ f, EncFileMap C page K (keys f) (EncThreads.dir ⟨{ w := start names inodes }, n0⟩ f) (S0 f))
    {es : List (PrEv Bytes)} {s : EncThreads} {h : List (HEv POp PRes)} (hrun : EncThreads.run (encProcess C page fileOf dirOk) keys ⟨{ w := start names inodes }, n0⟩ es = some (s, h))
    (hrand : ∀ t rand, .go t rand ∈ es → rand.length = 11) (hfit : EncCallsFit page h) (hio : ∀ o ord, .io o ord ∈ es → ∀ l, (ord l).Perm l)
    (hapart : Apart h) (hone : OneSpelling fileOf h) (hroom : page * (K + es.length) + 8 < 2 ^ 64) (hctr : K + es.length < 2 ^ 32 - 1) :
    ∃ L last, Linearization (SeqBehaves dirOk fileOf) { maps := S0 } h L last ∧
      (∀ (k : Nat) (d : String) (x : Inst (Bytes × Bytes)), last.handles[k]? = some (d, true) → s.p.w.store? k = some x → x.phase = .idle → x.Shows (last.maps (fileOf d))) ∧
      ∀ f, last.maps f = (S0 f).run (mutationsOn fileOf f L) ∧
        ∀ (rand : Bytes) (left : Option Bytes), rand.length = 11 → (left = s.nonces f ∨ s.p.w.fileAt f = none) →
          ∃ n x, openEnc C page (keys f) rand { s.dir f with nonceFile := left } = some x ∧ x.Shows ((S0 f).run ((mutationsOn fileOf f L).take n)) ∧
            (NobodyOn fileOf h last f → x.Shows (last.maps f)) := by
  obtain ⟨L, p, cs, hi, hn⟩ := enc_pinv h8 h32 hkeys hg h0 hrun hrand hfit hio hapart hone hroom hctr
  refine ⟨L, p, hi.hist.lin, ?_, fun f => ?_⟩
  · intro k d x hk hx hph
    obtain ⟨hd, ob, g1, g2, g3, g4⟩ := store_live hx
    have := Proc.handles_live hi g1 g2
    rw [hk] at this; injection this with this; injection this with this _; subst this
    rw [hi.maps]
    exact (hi.base.file _).handle hi.base.reg hi.base.lv g1 rfl hx hph
  · have hmaps : p.maps f = (S0 f).run (mutationsOn fileOf f L) := by rw [hi.maps]; exact congrArg _ (hi.calls f)
    refine ⟨hmaps, fun rand left hr hleft => ?_⟩
    obtain ⟨k, hk⟩ := Option.isSome_iff_exists.1 (hkeys f)
    have hnil : s.p.w.fileAt f = none → (s.p.w.fileAt f).getD [] = [] := fun e => by rw [e]; rfl
    have hmove : ∀ {S : Store}, GoodFile (encEnv C page h8 True) (encrypted C (openIdx keys s.nonces f rand)) (K + (cs f).length) ((s.p.w.fileAt f).getD []) S →
        GoodFile (encEnv C page h8 True) ((encEnv C page h8 True).codecs (k, initNonce left rand)) (K + (cs f).length) ((s.p.w.fileAt f).getD []) S := by
      intro S hgf
      rcases hleft with rfl | hnone
      · rw [openIdx, hk] at hgf; exact hgf
      · exact hgf.nil_any (hnil hnone)
    have hfull : NobodyOn fileOf h p f → GoodFile (encEnv C page h8 True) ((encEnv C page h8 True).codecs (k, initNonce left rand)) (K + (cs f).length) ((s.p.w.fileAt f).getD [])
        ((S0 f).run (cs f)) := by
      intro hr1
      have hcl := Proc.closed_of_nobody hi hr1
      exact hmove ((hi.base.file f).at_rest hcl (hn.keyed hi.base hcl hr))
    obtain ⟨n, _, hgf⟩ := (hi.base.file f).at_any_time (i := openIdx keys s.nonces f rand) (fun h => ⟨rand, hr, by rw [openIdx, openIdx, hn.unused f h]⟩) (fun hf => enc_next hi hn hr hf)
    obtain ⟨x, hx, hd, _⟩ := Inst.dinv_open (i := (k, initNonce left rand)) (hmove hgf)
    have hcs : cs f = mutationsOn fileOf f L := hi.calls f
    rw [hcs] at hd
    refine ⟨n, x, ?_, shows_of_view hx (by simpa [Store.run] using hd.kvView), fun hr => ?_⟩
    · simp only [openEnc, encryptorInit, hk]
      exact hx
    obtain ⟨y, hy, hd', _⟩ := Inst.dinv_open (i := (k, initNonce left rand)) (hfull hr)
    have : some x = some y := hx.symm.trans hy
    injection this with this; subst this
    rw [hi.maps]
    exact shows_of_view hx (by simpa [Store.run] using hd'.kvView)

/-! ### The hypotheses can be met -/

/-- Eleven bytes, as `OsRng` might yield them. -/
def rnd (x : UInt8) : Bytes := List.replicate 11 x

/-- Threads 0 and 1 open "a" at the same time; thread 0 puts "k" while thread 1 opens "b" and reads "k" of "a"; both drop their handles of "a", at the same time, with
the put still to be written; thread 0 opens "a" again and reads "k" while thread 1 puts "k" into "b"; thread 0 clears "a", which gets a new nonce, puts "l" and drops its handle;
thread 1 opens "a" and reads both keys. -/
def encReopenDemo : List (PrEv Bytes) :=
  [.call 0 (.new "a"), .call 1 (.new "a"), .go 0 (rnd 1), .go 1 (rnd 2), .go 1 (rnd 3), .go 0 (rnd 4), .ret 0, .ret 1,
   .call 0 (.on 1 "a" (.mut (.put "k" ⟨0, [0, 0, 0, 7]⟩))), .go 0 (rnd 5), .call 1 (.new "b"), .go 1 (rnd 6), .go 0 (rnd 7), .go 1 (rnd 8), .ret 1, .go 0 (rnd 9),
   .call 1 (.on 0 "a" (.get "k" 0)), .go 1 (rnd 10), .go 1 (rnd 11), .ret 1, .ret 0,
   .call 0 (.drop 1 "a"), .call 1 (.drop 0 "a"), .go 0 (rnd 12), .go 1 (rnd 13), .go 0 (rnd 14), .go 1 (rnd 15), .ret 0] ++
  List.replicate 5 (.io 0 id) ++ [.go 1 (rnd 16), .ret 1] ++
  [.call 0 (.new "a"), .go 0 (rnd 17), .call 1 (.on 2 "b" (.mut (.put "k" ⟨0, [0, 0, 0, 8]⟩))), .go 0 (rnd 18), .ret 0, .go 1 (rnd 19), .call 0 (.on 3 "a" (.get "k" 0)), .go 0 (rnd 20), .go 0 (rnd 21),
   .ret 0, .go 1 (rnd 22), .go 1 (rnd 23), .ret 1,
   .call 0 (.on 3 "a" (.mut .clear)), .go 0 (rnd 24), .go 0 (rnd 25), .go 0 (rnd 26), .go 0 (rnd 27)] ++ List.replicate 5 (.io 2 id) ++ [.go 0 (rnd 28), .go 0 (rnd 29), .ret 0,
   .call 0 (.on 3 "a" (.mut (.put "l" ⟨0, [0, 0, 0, 9]⟩))), .go 0 (rnd 30), .go 0 (rnd 31), .go 0 (rnd 32), .ret 0, .call 0 (.drop 3 "a"), .go 0 (rnd 33), .go 0 (rnd 34)] ++ List.replicate 5 (.io 2 id) ++ [.go 0 (rnd 35), .ret 0,
   .call 1 (.new "a"), .go 1 (rnd 36), .go 1 (rnd 37), .ret 1, .call 1 (.on 4 "a" (.get "k" 0)), .go 1 (rnd 38), .go 1 (rnd 39), .ret 1,
   .call 1 (.on 4 "a" (.get "l" 0)), .go 1 (rnd 40), .go 1 (rnd 41), .ret 1]

/-- What an observer sees of it. -/
def encReopenHist : List (HEv POp PRes) := reopenHist ++
  [.inv 0 (.on 3 "a" (.mut .clear)), .res 0 (.res (.ok none)), .inv 0 (.on 3 "a" (.mut (.put "l" ⟨0, [0, 0, 0, 9]⟩))), .res 0 (.res (.ok none)),
   .inv 0 (.drop 3 "a"), .res 0 .dropped, .inv 1 (.new "a"), .res 1 (.handle 4), .inv 1 (.on 4 "a" (.get "k" 0)), .res 1 (.res (.err .keyNotFound)),
   .inv 1 (.on 4 "a" (.get "l" 0)), .res 1 (.res (.ok (some [0, 0, 0, 9])))]

/-- An empty directory. -/
theorem encFileMap_empty {C : Cipher} {page : Nat} (h16 : 8 ≤ page) {key : String} (hk : (decodeKey key).isSome = true) : EncFileMap C page 0 key ⟨[], none⟩ Store.empty := by
  obtain ⟨k, hk⟩ := Option.isSome_iff_exists.1 hk
  refine ⟨fun rand hr => ?_, ?_, Nat.le_refl _⟩
  · obtain ⟨s, hs, hd, _⟩ := Inst.dinv_open (E := encEnv C page (by omega) True) (i := (k, initNonce none rand)) (K := 0) .empty
    refine ⟨s, by simp only [openEnc, encryptorInit, hk]; exact hs, shows_of_view hs (by simpa [Store.run] using hd.kvView)⟩
  · intro rand k' items hr _ hi b hb
    exact absurd hi (by simp [fileRecords, WState.readItems, WState.writeOffset, WState.lenOffset])

/-- The hypotheses of C87 with encryption are met by this history. -/
example : (∀ _f : Nat, (decodeKey testKey).isSome = true) ∧ GoodNames (fun _ => none) [] ∧
    (∀ f, EncFileMap toy 80 0 testKey (EncThreads.dir ⟨{ w := start (fun _ => none) [] }, fun _ => none⟩ f) Store.empty) ∧
    (∃ s, EncThreads.run (encProcess toy 80 twoDirs.fileOf twoDirs.dirOk) (fun _ => testKey) ⟨{ w := start (fun _ => none) [] }, fun _ => none⟩ encReopenDemo = some (s, encReopenHist) ∧
      s.nonces 0 = some (rnd 29) ∧ s.nonces 1 = some (rnd 8)) ∧
    (∀ t rand, .go t rand ∈ encReopenDemo → rand.length = 11) ∧ EncCallsFit 80 encReopenHist ∧
    (∀ o ord, .io o ord ∈ encReopenDemo → ∀ l, (ord l).Perm l) ∧ Apart encReopenHist ∧ OneSpelling twoDirs.fileOf encReopenHist ∧
    80 * (0 + encReopenDemo.length) + 8 < 2 ^ 64 ∧ 0 + encReopenDemo.length < 2 ^ 32 - 1 := by
  have hk : (decodeKey testKey).isSome = true := by rw [decode_testKey]; rfl
  refine ⟨fun _ => hk, .none, fun _ => encFileMap_empty (by decide) hk, ?_, ?_, ?_, ?_, apart_of (by decide +kernel), ?_, by decide, by decide⟩
  · have hc : (match EncThreads.run (encProcess toy 80 twoDirs.fileOf twoDirs.dirOk) (fun _ => testKey) ⟨{ w := start (fun _ => none) [] }, fun _ => none⟩ encReopenDemo with
        | some (s, h) => decide (h = encReopenHist ∧ s.nonces 0 = some (rnd 29) ∧ s.nonces 1 = some (rnd 8))
        | none => false) = true := by decide +kernel
    split at hc
    · rename_i s h hr
      simp only [decide_eq_true_eq] at hc
      obtain ⟨rfl, h1, h2⟩ := hc
      exact ⟨s, hr, h1, h2⟩
    · cases hc
  · intro t rand hm
    have hall : (encReopenDemo.all fun e => match e with | .go _ rand => rand.length == 11 | _ => true) = true := by decide +kernel
    simpa using List.all_eq_true.1 hall _ hm
  · intro t k d m hm
    simp [encReopenHist, reopenHist] at hm
    rcases hm with ⟨_, _, _, rfl⟩ | ⟨_, _, _, rfl⟩ | ⟨_, _, _, rfl⟩ | ⟨_, _, _, rfl⟩
    · show encRecordSize "k" 0 [0, 0, 0, 7] ≤ 80; decide +kernel
    · show encRecordSize "k" 0 [0, 0, 0, 8] ≤ 80; decide +kernel
    · trivial
    · show encRecordSize "l" 0 [0, 0, 0, 9] ≤ 80; decide +kernel
  · intro o ord hm
    have hid : ∀ (l : List (PrEv Bytes)) (n m : Nat), (∀ o ord, .io o ord ∈ l → ∀ x, (ord x).Perm x) → ∀ o ord, .io o ord ∈ l ++ List.replicate n (.io m id) → ∀ x, (ord x).Perm x := by
      intro l n m hl o ord h
      rcases List.mem_append.1 h with h | h
      · exact hl o ord h
      · have := List.eq_of_mem_replicate h
        injection this with _ h2; subst h2
        exact fun x => List.Perm.refl x
    have hno : ∀ (l r : List (PrEv Bytes)), (∀ o ord, .io o ord ∈ l → ∀ x, (ord x).Perm x) → (r.all fun e => match e with | .io _ _ => false | _ => true) = true →
        ∀ o ord, .io o ord ∈ l ++ r → ∀ x, (ord x).Perm x := by
      intro l r hl hr o ord h
      rcases List.mem_append.1 h with h | h
      · exact hl o ord h
      · have := List.all_eq_true.1 hr _ h
        cases this
    revert o ord
    unfold encReopenDemo
    have h0 : ∀ o ord, .io o ord ∈ ([] : List (PrEv Bytes)) → ∀ x, (ord x).Perm x := fun _ _ h => absurd h List.not_mem_nil
    exact hno _ _ (hid _ _ _ (hno _ _ (hid _ _ _ (hno _ _ (hno _ _ (hid _ _ _ (hno [] _ h0 (by decide +kernel))) (by decide +kernel)) (by decide +kernel))) (by decide +kernel))) (by decide +kernel)
  · intro t u d e h1 h2 hf
    have hd : ∀ t d, .inv t (.new d) ∈ encReopenHist → d = "a" ∨ d = "b" := by
      intro t d h
      simp only [encReopenHist, reopenHist, List.cons_append, List.nil_append, List.mem_cons, HEv.inv.injEq, POp.new.injEq, reduceCtorEq, and_false, false_or, List.not_mem_nil, or_false] at h
      rcases h with h | h | h | h | h
      all_goals first | exact .inl h.2 | exact .inr h.2
    rcases hd t d h1 with rfl | rfl <;> rcases hd u e h2 with rfl | rfl <;> first | rfl | (revert hf; decide)

end Mmkv
