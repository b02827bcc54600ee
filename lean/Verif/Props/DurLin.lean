import Verif.Props.Linear
import Verif.Props.Encrypt
/-!
# C71: threads and crashes together
-/

namespace Mmkv
open Spec Inst Threads
variable {ι : Type}

/-- The event is a call of put, delete or clear_data. -/
def isMutation : HEv Op Res → Bool
  | .inv _ (.mut _) => true
  | _ => false

/-- How many calls of put, delete and clear_data the histories have. -/
def mutationCount (hs : List (List (HEv Op Res) × Bool)) : Nat := (hs.map fun h => (h.1.filter isMutation).length).sum

namespace DurLin

theorem count_le {α : Type} {p : α → Bool} (h : List α) {l : List Nat} (hd : l.Nodup) (hl : ∀ x ∈ l, ∃ e, h[x]? = some e ∧ p e = true) :
    l.length ≤ (h.filter p).length := by
  induction h generalizing l with
  | nil =>
    cases l with
    | nil => simp
    | cons x l => obtain ⟨e, he, _⟩ := hl x List.mem_cons_self; simp at he
  | cons a h ih =>
    -- drop position 0, shift the others
    have h1 := ih (l := (l.erase 0).map (· - 1)) (by
      have hne : ∀ x ∈ l.erase 0, x ≠ 0 := fun x hx => ((List.Nodup.mem_erase_iff hd).1 hx).1
      have hde := hd.erase 0
      clear hl hd ih
      generalize l.erase 0 = m at hne hde
      induction m with
      | nil => simp
      | cons y m ihm =>
        rw [List.nodup_cons] at hde
        simp only [List.map_cons, List.nodup_cons]
        refine ⟨?_, ihm (fun x hx => hne x (List.mem_cons_of_mem _ hx)) hde.2⟩
        intro hm
        obtain ⟨z, hz, hzy⟩ := List.mem_map.1 hm
        have a1 := hne y List.mem_cons_self
        have a2 := hne z (List.mem_cons_of_mem _ hz)
        have : z = y := by omega
        subst this
        exact hde.1 hz) (by
      intro x hx
      obtain ⟨y, hy, rfl⟩ := List.mem_map.1 hx
      have hy0 := ((List.Nodup.mem_erase_iff hd).1 hy).1
      obtain ⟨e, he, hp⟩ := hl y (List.mem_of_mem_erase hy)
      refine ⟨e, ?_, hp⟩
      obtain ⟨z, rfl⟩ : ∃ z, y = z + 1 := ⟨y - 1, by omega⟩
      simpa using he)
    rw [List.length_map] at h1
    by_cases h0 : 0 ∈ l
    · obtain ⟨e, he, hp⟩ := hl 0 h0
      simp only [List.getElem?_cons_zero, Option.some.injEq] at he
      subst he
      rw [List.length_erase_of_mem h0] at h1
      have : 0 < l.length := List.length_pos_of_mem h0
      simp only [List.filter_cons, hp, if_true, List.length_cons]
      omega
    · rw [List.erase_of_not_mem h0] at h1
      refine Nat.le_trans h1 ?_
      simp only [List.filter_cons]
      split <;> simp

/-- The call fits. -/
def OpOk (E : Env ι) : Op → Prop
  | .mut m => (evOf m : Ev ι).Ok E
  | .get _ _ => True

theorem legal_live {σ σ' : Object} {l : List (Op × Res)} (h : Legal Behaves σ l σ') (hl : σ.live)
    (hok : ∀ m r, (Op.mut m, r) ∈ l → r = .ok none) : σ'.live ∧ Legal MapBehaves σ.map l σ'.map := by
  induction h with
  | nil σ => exact ⟨hl, .nil _⟩
  | @cons σ σ1 σ2 op r l hstep hrest ih =>
    have key : σ1.live ∧ MapBehaves σ.map op r σ1.map := by
      cases hstep with
      | locked hp => rw [hl.1] at hp; cases hp
      | shut _ hc _ => rw [hl.2] at hc; cases hc
      | get _ => exact ⟨hl, rfl, rfl⟩
      | write _ _ => exact ⟨hl, rfl, rfl⟩
      | writeFailed _ _ _ => exact absurd (hok _ _ List.mem_cons_self) (by simp)
      | clear _ => exact ⟨⟨rfl, rfl⟩, rfl, rfl⟩
      | clearFailed _ => exact absurd (hok _ _ List.mem_cons_self) (by simp)
      | clearPanic _ => exact absurd (hok _ _ List.mem_cons_self) (by simp)
      | reopen _ hc => rw [hl.2] at hc; cases hc
    obtain ⟨h1, h2⟩ := ih key.1 (fun m r hm => hok m r (List.mem_cons_of_mem _ hm))
    exact ⟨h1, .cons key.2 h2⟩

theorem evOf_call {e : Ev ι} {m : Mutation} (h : e.call? = some m) : e = evOf m := by
  cases e <;> simp [Ev.call?] at h <;> subst h <;> rfl

/-- One session: a linearization of what was observed, whose mutations are those the store has been given. -/
theorem session {E : Env ι} {S0 : Store} {K : Nat} {i : ι} {file : Bytes} {s0 : Inst ι} (hopen : openAt E.codecs i E.page file = some s0)
    (hd : DInv E S0 K [] s0) {es : List (TEv ι)} {s : Threads ι} {h : List (HEv Op Res)}
    (hrun : Threads.run E.codecs { inst := s0 } es = some (s, h)) (hQ : ∀ e ∈ es, e.Chosen fun e => e.Ok E)
    (hok : ∀ t op, .inv t op ∈ h → OpOk E op) [Nonempty ι] (hroom : E.Room (K + (h.filter isMutation).length)) :
    ∃ L last, Linearization MapBehaves S0 h L last ∧ DInv E S0 K (L.filterMap mutOf) s.inst ∧
      (L.filterMap mutOf).length ≤ (h.filter isMutation).length := by
  obtain ⟨L, σ, hi⟩ := tinv_run es (tinv_start (fun e => e.Ok E) hopen) hQ hrun
  have hv0 : view s0.kv = S0 := by simpa [Store.run] using hd.kvView
  rw [hv0] at hi
  simp only [List.nil_append] at hi
  have hinv : ∀ x ∈ L, ∃ t, h[x.1]? = some (.inv t x.2.1) := hi.lin.invoked
  -- counting and sizes, for any linearization that has only calls of the history
  have hcount : ∀ (L : List (Nat × Op × Res)), (L.map (·.1)).Nodup → (∀ x ∈ L, ∃ t, h[x.1]? = some (.inv t x.2.1)) →
      (L.filterMap mutOf).length ≤ (h.filter isMutation).length := by
    intro L hnd hin
    have h1 : (L.filterMap mutOf).length = ((L.filter fun x => (mutOf x).isSome).map (·.1)).length := by
      rw [List.length_map]
      clear hnd hin
      induction L with
      | nil => rfl
      | cons x L ih =>
        rw [List.filterMap_cons, List.filter_cons]
        cases hm : mutOf x <;> simp [ih]
    rw [h1]
    refine count_le h (List.Nodup.sublist (List.Sublist.map _ List.filter_sublist) hnd) ?_
    intro p hp
    obtain ⟨x, hx, rfl⟩ := List.mem_map.1 hp
    obtain ⟨hx, hxm⟩ := List.mem_filter.1 hx
    obtain ⟨t, ht⟩ := hin x hx
    refine ⟨_, ht, ?_⟩
    obtain ⟨p, op, r⟩ := x
    cases op <;> simp [mutOf] at hxm
    rfl
  have hfits : ∀ (L : List (Nat × Op × Res)), (∀ x ∈ L, ∃ t, h[x.1]? = some (.inv t x.2.1)) → ∀ m ∈ L.filterMap mutOf, (evOf m : Ev ι).Ok E := by
    intro L hin m hm
    obtain ⟨x, hx, hxm⟩ := List.mem_filterMap.1 hm
    obtain ⟨t, ht⟩ := hin x hx
    have := hok t _ (List.mem_of_getElem? ht)
    obtain ⟨p, op, r⟩ := x
    cases op with
    | «mut» m' => simp only [mutOf, Option.some.injEq] at hxm; subst hxm; exact this
    | get k t => simp [mutOf] at hxm
  -- what a projected run gives
  have hproj : ∀ {L' : List (Nat × Op × Res)} {P : List Mutation}, (L'.map (·.1)).Nodup → (∀ x ∈ L', ∃ t, h[x.1]? = some (.inv t x.2.1)) →
      L'.filterMap mutOf = L.filterMap mutOf ++ P → Proj E.codecs (fun e => e.Ok E) s0 s.inst L P →
      (∀ x ∈ L.filterMap mutRes, x = .ok none) ∧ DInv E S0 K (L'.filterMap mutOf) s.inst := by
    intro L' P hnd hin hL' ⟨es', rs, g1, g2, g3, g4⟩
    have hc := hcount L' hnd hin
    have hcalls : calls es' = L'.filterMap mutOf := by rw [hL', g2]
    obtain ⟨a, b⟩ := Inst.dinv_run es' hd (by
      intro e he
      have h4 := g4 e he
      have hcall : ∀ m, e.call? = some m → e.Ok E := by
        intro m hm
        rw [evOf_call hm]
        refine hfits L' hin m ?_
        rw [← hcalls]
        exact List.mem_filterMap.2 ⟨e, he, hm⟩
      cases e with
      | put k t bs => exact hcall _ rfl
      | delete k => exact hcall _ rfl
      | clear => trivial
      | api i => trivial
      | drop => trivial
      | io o => exact h4)
      (by simp only [List.length_nil, Nat.add_zero]; rw [hcalls]; exact hroom.mono (by omega)) g1
    refine ⟨?_, by rw [List.nil_append, hcalls] at b; exact b⟩
    intro x hx
    rw [← g3] at hx
    obtain ⟨r, hr, rfl⟩ := List.mem_map.1 hx
    rw [a r hr]; rfl
  have hlive : (∀ x ∈ L.filterMap mutRes, x = .ok none) → σ.live ∧ Linearization MapBehaves S0 h L σ.map := by
    intro hm
    obtain ⟨a, b⟩ := legal_live hi.lin.legal ⟨rfl, rfl⟩ (by
      intro m r hmr
      obtain ⟨x, hx, hxe⟩ := List.mem_map.1 hmr
      refine hm r (List.mem_filterMap.2 ⟨x, hx, ?_⟩)
      obtain ⟨p, op, r'⟩ := x
      simp only [Prod.mk.injEq] at hxe
      obtain ⟨rfl, rfl⟩ := hxe
      rfl)
    exact ⟨a, hi.lin.distinct, hi.lin.invoked, hi.lin.complete, b, hi.lin.order⟩
  cases ho : s.owner with
  | none =>
    obtain ⟨_, _, hp⟩ := hi.free ho
    obtain ⟨a, b⟩ := hproj hi.lin.distinct hinv (by simp) hp
    exact ⟨L, σ.map, (hlive a).2, b, hcount L hi.lin.distinct hinv⟩
  | some t =>
    obtain ⟨_, m, hm, _, hp⟩ := hi.held t ho
    obtain ⟨pos, hpend, hnot⟩ := hi.wait t _ (.inr hm)
    have hnd : ((L ++ [(pos, Op.mut m, (.ok none : Res))]).map (·.1)).Nodup := by
      rw [List.map_append]
      refine List.nodup_append.2 ⟨hi.lin.distinct, by simp, ?_⟩
      intro a ha b hb
      simp only [List.map_cons, List.map_nil, List.mem_singleton] at hb
      subst hb
      rintro rfl
      exact hnot ha
    have hin : ∀ x ∈ L ++ [(pos, Op.mut m, (.ok none : Res))], ∃ t, h[x.1]? = some (.inv t x.2.1) := by
      intro x hx
      rcases List.mem_append.1 hx with hx | hx
      · exact hinv x hx
      · simp only [List.mem_singleton] at hx
        subst hx
        exact ⟨t, hpend.1⟩
    obtain ⟨a, b⟩ := hproj hnd hin (by rw [filterMap_snoc]; rfl) hp
    refine ⟨_, σ.map.apply m, (hlive a).2.point hpend hnot ⟨rfl, rfl⟩, b, hcount _ hnd hin⟩

theorem legal_take {S : Type} {Step : S → Op → Res → S → Prop} {σ last : S} {l : List (Op × Res)} (h : Legal Step σ l last) (k : Nat) :
    ∃ mid, Legal Step σ (l.take k) mid := by
  induction h generalizing k with
  | nil σ => exact ⟨σ, by simpa using .nil σ⟩
  | cons hs _ ih =>
    cases k with
    | zero => exact ⟨_, .nil _⟩
    | succ k => obtain ⟨mid, hm⟩ := ih k; exact ⟨mid, .cons hs hm⟩

theorem cut (L : List (Nat × Op × Res)) (m : Nat) (hm : m ≤ (L.filterMap mutOf).length) :
    ∃ k, (L.take k).filterMap mutOf = (L.filterMap mutOf).take m ∧ (m = (L.filterMap mutOf).length → L.length ≤ k) := by
  by_cases he : m = (L.filterMap mutOf).length
  · exact ⟨L.length, by rw [he, List.take_length, List.take_length], fun _ => Nat.le_refl _⟩
  have hlt : m < (L.filterMap mutOf).length := by omega
  suffices ∃ k, (L.take k).filterMap mutOf = (L.filterMap mutOf).take m from
    let ⟨k, hk⟩ := this; ⟨k, hk, fun h => absurd h he⟩
  clear hm he
  induction L generalizing m with
  | nil => simp at hlt
  | cons x L ih =>
    cases m with
    | zero => exact ⟨0, by simp⟩
    | succ m =>
      rw [List.filterMap_cons] at hlt ⊢
      cases hx : mutOf x with
      | none =>
        simp only [hx] at hlt ⊢
        obtain ⟨k, hk⟩ := ih (m + 1) hlt
        exact ⟨k + 1, by rw [List.take_succ_cons, List.filterMap_cons, hx]; exact hk⟩
      | some y =>
        simp only [hx, List.length_cons] at hlt ⊢
        obtain ⟨k, hk⟩ := ih m (by omega)
        exact ⟨k + 1, by rw [List.take_succ_cons, List.filterMap_cons, hx, List.take_succ_cons]; simp only [hk]⟩

theorem ends {E : Env ι} {S0 : Store} {K : Nat} {cs : List Mutation} {x : TSession ι} {s : Threads ι} {s' : Inst ι}
    (hd : DInv E S0 K cs s.inst) (hroom : E.Room (K + cs.length)) (he : Ends E.codecs x s s')
    (hord : ∀ ios, x.close = some ios → ∀ o ∈ ios, ∀ l, (o l).Perm l) :
    DInv E S0 K cs s' ∧ (x.clean = true → s'.closedOk) := by
  unfold Ends at he
  split at he
  · obtain ⟨rfl, hc⟩ := he
    exact ⟨hd, by simp [hc]⟩
  · rename_i ios hios
    obtain ⟨_, hr, hc⟩ := he
    have hno : calls (Ev.drop :: ios.map Ev.io : List (Ev ι)) = [] := by
      rw [calls_cons]
      have : calls (ios.map Ev.io : List (Ev ι)) = [] := by
        clear hord hios hr
        induction ios with
        | nil => rfl
        | cons o ios ih => rw [List.map_cons, calls_cons, ih]; rfl
      rw [this]; rfl
    obtain ⟨_, b⟩ := Inst.dinv_run _ hd (by
      intro e he
      rcases List.mem_cons.1 he with rfl | he
      · trivial
      · obtain ⟨o, ho, rfl⟩ := List.mem_map.1 he
        exact hord ios hios o ho) (by rw [hno]; exact hroom) hr
    rw [hno, List.append_nil] at b
    exact ⟨b, hc⟩

/-- Several sessions. -/
theorem life {E : Env ι} {K : Nat} {d d' : Dir ι} {xs : List (TSession ι)} {hs : List (List (HEv Op Res) × Bool)} {S0 : Store}
    (hl : TLife E.codecs E.page d xs hs d') (hg : GoodDir E K d S0) (hQ : ∀ x ∈ xs, ∀ e ∈ x.evs, e.Chosen fun e => e.Ok E)
    (hord : ∀ x ∈ xs, ∀ ios, x.close = some ios → ∀ o ∈ ios, ∀ l, (o l).Perm l)
    (hok : ∀ h ∈ hs, ∀ t op, .inv t op ∈ h.1 → OpOk E op) (hroom : E.Room (K + mutationCount hs)) :
    ∃ S, BufferedDurable MapBehaves S0 hs S ∧ GoodDir E (K + mutationCount hs) d' S := by
  induction hl generalizing K S0 with
  | nil d => exact ⟨S0, .nil _, by simpa [mutationCount] using hg⟩
  | @cons d d' x xs s0 s s' h hs hi ho hr he rest ih =>
    have hne : Nonempty ι := ⟨x.i⟩
    obtain ⟨s1, hs1, hinv, _⟩ := Inst.dinv_open (hg x.i hi)
    rw [ho] at hs1
    injection hs1 with hs1
    subst hs1
    have hcnt : mutationCount ((h, x.clean) :: hs) = (h.filter isMutation).length + mutationCount hs := by simp [mutationCount]
    rw [hcnt] at hroom ⊢
    obtain ⟨L, last, hlin, hd, hlen⟩ := session ho hinv hr (hQ x List.mem_cons_self) (hok _ List.mem_cons_self) (hroom.mono (by omega))
    obtain ⟨hd', hclean⟩ := ends hd (hroom.mono (by omega)) he (hord x List.mem_cons_self)
    obtain ⟨m, hm, hmc, hg'⟩ := goodDir_end hd' x.clean hclean
    obtain ⟨k, hk, hkl⟩ := cut L m hm
    obtain ⟨mid, hmid⟩ := legal_take hlin.legal k
    rw [← List.map_take] at hmid
    have hmid' : mid = S0.run ((L.filterMap mutOf).take m) := by rw [legal_final hmid, hk]
    rw [← hmid'] at hg'
    obtain ⟨S, hS, hgS⟩ := ih (K := K + (h.filter isMutation).length) (S0 := mid)
      (fun i hi => (hg' i hi).mono (by omega)) (fun y hy => hQ y (List.mem_cons_of_mem _ hy))
      (fun y hy => hord y (List.mem_cons_of_mem _ hy)) (fun y hy => hok y (List.mem_cons_of_mem _ hy))
      (by rw [Nat.add_assoc]; exact hroom)
    exact ⟨S, .cons k hlin (fun hc => hkl (hmc hc)) hmid hS, by rw [← Nat.add_assoc]; exact hgS⟩

/-- Something true of the key and nonce in use stays true. -/
theorem idx_session {codecs : ι → Codec} {P : ι → Prop} {i : ι} {page : Nat} {file : Bytes} {s0 : Inst ι}
    (hopen : openAt codecs i page file = some s0) (hi : P i) {x : TSession ι} {s : Threads ι} {h : List (HEv Op Res)}
    (hrun : Threads.run codecs { inst := s0 } x.evs = some (s, h)) (hP : ∀ t j, .work t j ∈ x.evs → P j) {s' : Inst ι}
    (he : Ends codecs x s s') : P s'.idx := by
  obtain ⟨L, σ, ht⟩ := tinv_run x.evs (tinv_start (fun e => ∀ j, e = .api j → P j) hopen) (by
    intro e he
    cases e with
    | work t j => intro j' hj'; cases hj'; exact hP t _ he
    | io o => intro j hj; cases hj
    | _ => trivial) hrun
  have h0 : P s0.idx := by
    unfold openAt at hopen
    split at hopen
    · cases hopen
    · injection hopen with ho; subst ho; exact hi
  have hrun' : ∀ {Q : List Mutation}, Proj codecs (fun e => ∀ j, e = .api j → P j) s0 s.inst L Q → P s.inst.idx := by
    intro Q ⟨es', rs, g1, _, _, g4⟩
    exact idx_run es' h0 (fun j hj => g4 _ hj j rfl) g1
  have h1 : P s.inst.idx := by
    cases ho : s.owner with
    | none => exact hrun' (ht.free ho).2.2
    | some t => obtain ⟨_, m, _, _, hp⟩ := ht.held t ho; exact hrun' hp
  unfold Ends at he
  split at he
  · obtain ⟨rfl, _⟩ := he; exact h1
  · obtain ⟨_, hr, _⟩ := he
    exact idx_run _ h1 (by intro j hj; simp at hj) hr

end DurLin

/-- A `HashMap` yields each of its values once. -/
def TSession.OrdersOk (x : TSession ι) : Prop :=
  (∀ o, .io o ∈ x.evs → ∀ l, (o l).Perm l) ∧ ∀ ios, x.close = some ios → ∀ o ∈ ios, ∀ l, (o l).Perm l

/-- **C71.** Any number of sessions on a fresh directory, in each of which any number of threads make any calls in any schedule,
each ended by a clean close or by the death of the process at any moment between two background writes (in the middle of calls,
too); records fit a page.  What was observed is buffered durably linearizable with respect to a plain map, and what the next open
shows is what it leads to: there are linearizations of the histories, one for each session, each starting with the map the
session before left; a session leaves what some first part of its linearization leads to, all of it if it was closed. -/
theorem C71_buffered_durable {page : Nat} (h8 : 8 ≤ page) (h32 : page < 2 ^ 32) {xs : List (TSession Unit)}
    {hs : List (List (HEv Op Res) × Bool)} {d : Dir Unit} (hl : TLife plain page Dir.fresh xs hs d) (hord : ∀ x ∈ xs, x.OrdersOk)
    (hfit : ∀ h ∈ hs, ∀ t op, .inv t op ∈ h.1 → opBytes op ≤ page) (hroom : page * mutationCount hs + 8 < 2 ^ 64) :
    ∃ S, BufferedDurable MapBehaves Store.empty hs S ∧ ∃ s, openAt plain () page d.file = some s ∧ s.Shows S := by
  obtain ⟨S, hS, hg⟩ := DurLin.life (E := plainEnv page h8 False) (K := 0) hl (goodDir_fresh _ 0) (by
      intro x hx e he
      cases e with
      | io o => exact (hord x hx).1 o he
      | _ => trivial) (fun x hx => (hord x hx).2) (by
      intro h hh t op hi
      have := hfit h hh t op hi
      cases op with
      | get k t => trivial
      | «mut» m =>
        refine Ev.Fits.ok h32 ?_
        cases m with
        | put k e => exact this
        | delete k => exact this
        | clear => trivial) (by rw [Nat.zero_add]; exact plain_room hroom)
  obtain ⟨s, hs, hv⟩ := openAt_goodDir hg () (fun _ _ => rfl)
  exact ⟨S, hS, s, hs, shows_of_view hs hv⟩

/-- Bytes of the record a call makes, in the encrypted file. -/
def encOpBytes : Op → Nat
  | .mut (.put k e) => encRecordSize k e.token e.bytes
  | .mut (.delete k) => encRecordSize k deletedToken []
  | _ => 0

/-- The session uses the key string `key`, whose bytes are `k`; hash map orders and random bytes are as they should be. -/
structure TEncSession.Ok (key : String) (k : Bytes) (x : TEncSession) : Prop where
  key : x.key = key
  rand : x.rand.length = nonceLen
  drawn : ∀ t i, .work t i ∈ x.evs → i.1 = k ∧ i.2.length = nonceLen
  orders : ∀ o, .io o ∈ x.evs → ∀ l, (o l).Perm l
  closing : ∀ ios, x.close = some ios → ∀ o ∈ ios, ∀ l, (o l).Perm l

namespace DurLin

theorem tlife_of_tencLife {C : Cipher} {page : Nat} {key : String} {k : Bytes} (hk : decodeKey key = some k)
    {xs : List TEncSession} {d d' : EncDir} {hs : List (List (HEv Op Res) × Bool)} (hl : TEncLife C page d xs hs d')
    (hok : ∀ x ∈ xs, x.Ok key k) {g : Dir (Bytes × Bytes)} (hg : d.Fits k g) :
    ∃ ys g', TLife (encrypted C) page g ys hs g' ∧ d'.Fits k g' ∧
      ys.map (fun y => (y.evs, y.close)) = xs.map fun x => (x.evs, x.close) := by
  induction hl generalizing g with
  | nil d => exact ⟨[], g, .nil _, hg, rfl⟩
  | @cons d d' x xs s0 s s' h hs ho hr he rest ih =>
    obtain ⟨hx, hrand, hdrawn, _, _⟩ := hok x List.mem_cons_self
    rw [hx, openEnc_eq hk] at ho
    have h0 : s0.idx = (k, initNonce d.nonceFile x.rand) := by
      unfold openAt at ho
      split at ho
      · cases ho
      · injection ho with ho; subst ho; rfl
    rw [h0] at he
    have hidx : s'.idx.1 = k ∧ s'.idx.2.length = nonceLen :=
      idx_session (P := fun i => i.1 = k ∧ i.2.length = nonceLen) ho ⟨rfl, initNonce_length hrand⟩ (x := ⟨_, x.evs, x.close, x.clean⟩) hr hdrawn he
    have hg' : (encLeft s' x.half).Fits k s'.dir := by
      refine ⟨rfl, ?_⟩
      intro j hj
      simp only [dir] at hj
      cases hrm : s'.lp.cb.removed with
      | true => simp [hrm] at hj
      | false =>
        simp only [hrm] at hj
        simp only [Bool.false_eq_true, if_false, Option.some.injEq] at hj
        subst hj
        exact ⟨hidx.1, hidx.2, by simp [encLeft, hrm]⟩
    obtain ⟨ys, g', h1, h2, h3⟩ := ih (fun y hy => hok y (List.mem_cons_of_mem _ hy)) hg'
    refine ⟨⟨(k, initNonce d.nonceFile x.rand), x.evs, x.close, x.clean⟩ :: ys, g', ?_, h2, by simp [h3]⟩
    refine .cons (x := ⟨(k, initNonce d.nonceFile x.rand), x.evs, x.close, x.clean⟩) ?_ ?_ hr he h1
    · intro j hj
      obtain ⟨j1, j2, j3⟩ := hg.2 j hj
      rw [j3]
      simp only [initNonce, j2, if_true]
      rw [← j1]
    · rw [hg.1]; exact ho

end DurLin

/-- **C71** with encryption, one key throughout and fewer than `2^32 - 1` mutating calls. -/
theorem C71_encrypted (C : Cipher) {page : Nat} (h8 : 8 ≤ page) (h32 : page < 2 ^ 32) {key : String} {k : Bytes}
    (hk : decodeKey key = some k) {xs : List TEncSession} {hs : List (List (HEv Op Res) × Bool)} {d : EncDir}
    (hl : TEncLife C page EncDir.fresh xs hs d) (hok : ∀ x ∈ xs, x.Ok key k)
    (hfit : ∀ h ∈ hs, ∀ t op, .inv t op ∈ h.1 → encOpBytes op ≤ page)
    (hroom : page * mutationCount hs + 8 < 2 ^ 64) (hctr : mutationCount hs < 2 ^ 32 - 1) :
    ∃ S, BufferedDurable MapBehaves Store.empty hs S ∧ ∀ rand, ∃ s, openEnc C page key rand d = some s ∧ s.Shows S := by
  obtain ⟨ys, g', hl', hg', hev⟩ := DurLin.tlife_of_tencLife hk hl hok (g := Dir.fresh) ⟨rfl, by simp [Dir.fresh]⟩
  have hmem : ∀ y ∈ ys, ∃ x ∈ xs, y.evs = x.evs ∧ y.close = x.close := by
    intro y hy
    have : (y.evs, y.close) ∈ ys.map fun y => (y.evs, y.close) := List.mem_map_of_mem hy
    rw [hev] at this
    obtain ⟨x, hx, hxe⟩ := List.mem_map.1 this
    injection hxe with e1 e2
    exact ⟨x, hx, e1.symm, e2.symm⟩
  obtain ⟨S, hS, hg⟩ := DurLin.life (E := encEnv C page h8 False) (K := 0) hl' (goodDir_fresh _ 0) (by
      intro y hy e he
      obtain ⟨x, hx, e1, _⟩ := hmem y hy
      rw [e1] at he
      cases e with
      | io o => exact (hok x hx).orders o he
      | _ => trivial) (by
      intro y hy ios hios
      obtain ⟨x, hx, _, e2⟩ := hmem y hy
      exact (hok x hx).closing ios (e2 ▸ hios)) (by
      intro h hh t op hi
      have := hfit h hh t op hi
      cases op with
      | get k t => trivial
      | «mut» m =>
        refine Ev.EncFits.ok (k := k) h32 ?_
        cases m with
        | put k e => exact this
        | delete k => exact this
        | clear => trivial) (by
      rw [Nat.zero_add]
      exact ⟨hroom, by simpa [encEnv, aeadPos, counterMax] using hctr⟩)
  refine ⟨S, hS, fun rand => ?_⟩
  rw [openEnc_eq hk, ← hg'.1]
  have hi : ∀ j, g'.idx = some j → (k, initNonce d.nonceFile rand) = j := by
    intro j hj
    obtain ⟨j1, j2, j3⟩ := hg'.2 j hj
    rw [j3]
    simp only [initNonce, j2, if_true]
    rw [← j1]
  obtain ⟨s, ho, hv⟩ := openAt_goodDir hg _ hi
  exact ⟨s, ho, shows_of_view ho hv⟩

/-! ### Concrete sessions -/

namespace DurLin

/-- The threads that make calls. -/
def callers (es : List (TEv ι)) : List Nat := es.filterMap fun e => match e with | .call t _ => some t | _ => none

/-- Runs sessions; what was observed and the directory left. -/
def exec [DecidableEq ι] (codecs : ι → Codec) (page : Nat) : Dir ι → List (TSession ι) → Option (List (List (HEv Op Res) × Bool) × Dir ι)
  | d, [] => some ([], d)
  | d, x :: xs =>
    if d.idx = none ∨ d.idx = some x.i then
      match openAt codecs x.i page d.file with
      | none => none
      | some s0 =>
        match Threads.run codecs { inst := s0 } x.evs with
        | none => none
        | some (s, h) =>
          match x.close with
          | none =>
            if x.clean = false then
              match exec codecs page s.inst.dir xs with
              | none => none
              | some (hs, d') => some ((h, x.clean) :: hs, d')
            else none
          | some ios =>
            if ∀ t ∈ callers x.evs, s.th t = .idle then
              match Inst.run codecs s.inst (.drop :: ios.map .io) with
              | some (s', []) =>
                if x.clean = true → s'.phase = .closed ∧ s'.lp.io = .exited then
                  match exec codecs page s'.dir xs with
                  | none => none
                  | some (hs, d') => some ((h, x.clean) :: hs, d')
                else none
              | _ => none
            else none
    else none

theorem exec_sound [DecidableEq ι] {codecs : ι → Codec} {page : Nat} (xs : List (TSession ι)) {d d' : Dir ι}
    {hs : List (List (HEv Op Res) × Bool)} (h : exec codecs page d xs = some (hs, d')) : TLife codecs page d xs hs d' := by
  induction xs generalizing d hs with
  | nil => simp only [exec, Option.some.injEq, Prod.mk.injEq] at h; obtain ⟨rfl, rfl⟩ := h; exact .nil _
  | cons x xs ih =>
    unfold exec at h
    split at h
    · rename_i hidx
      split at h
      · cases h
      rename_i s0 ho
      split at h
      · cases h
      rename_i s hh hr
      have hi : ∀ j, d.idx = some j → x.i = j := by
        intro j hj
        rcases hidx with h0 | h0
        · rw [h0] at hj; cases hj
        · rw [h0] at hj; injection hj
      split at h
      · rename_i hcl
        split at h
        · rename_i hcn
          split at h
          · cases h
          rename_i hs1 d1 hx
          simp only [Option.some.injEq, Prod.mk.injEq] at h
          obtain ⟨rfl, rfl⟩ := h
          exact .cons hi ho hr (s' := s.inst) (by unfold Ends; rw [hcl]; exact ⟨rfl, hcn⟩) (ih hx)
        · cases h
      · rename_i ios hcl
        split at h
        · rename_i hidle
          split at h
          · rename_i s' hrun
            split at h
            · rename_i hc
              split at h
              · cases h
              rename_i hs1 d1 hx
              simp only [Option.some.injEq, Prod.mk.injEq] at h
              obtain ⟨rfl, rfl⟩ := h
              refine .cons hi ho hr (s' := s') ?_ (ih hx)
              unfold Ends
              rw [hcl]
              refine ⟨fun t => ?_, hrun, fun hcc => hc hcc⟩
              by_cases ht : t ∈ callers x.evs
              · exact hidle t ht
              · refine idle_run x.evs hr rfl fun op hop => ht ?_
                exact List.mem_filterMap.2 ⟨_, hop, rfl⟩
            · cases h
          · cases h
        · cases h
    · cases h

/-- Session 1: thread 0 puts `a` and the background thread writes it; thread 1 puts `b`, which returns but is not yet written, and thread
0 is inside a put of `a` when the process dies.  Session 2: thread 0 finds the first `a` and thread 1 no `b`; both put; closed. -/
def demo : List (TSession Unit) :=
  [⟨(), [.call 0 (.mut (.put "a" ⟨6, [1]⟩)), .call 1 (.mut (.put "b" ⟨6, [2]⟩)), .lock 0, .work 0 (), .work 0 (), .io id, .io id, .io id,
      .ret 0, .lock 1, .work 1 (), .work 1 (), .ret 1, .call 0 (.mut (.put "a" ⟨6, [3]⟩)), .lock 0, .work 0 ()], none, false⟩,
   ⟨(), [.call 0 (.get "a" 6), .call 1 (.get "b" 6), .lock 1, .lock 0, .work 0 (), .ret 0, .call 0 (.mut (.put "a" ⟨6, [4]⟩)), .work 1 (),
      .ret 1, .call 1 (.mut (.delete "a")), .lock 0, .work 0 (), .work 0 (), .lock 1, .ret 0, .work 1 (), .io id, .work 1 (), .ret 1],
      some (List.replicate 8 id), true⟩]

def demoHist : List (List (HEv Op Res) × Bool) :=
  [([.inv 0 (.mut (.put "a" ⟨6, [1]⟩)), .inv 1 (.mut (.put "b" ⟨6, [2]⟩)), .res 0 (.ok none), .res 1 (.ok none),
     .inv 0 (.mut (.put "a" ⟨6, [3]⟩))], false),
   ([.inv 0 (.get "a" 6), .inv 1 (.get "b" 6), .res 0 (.ok (some [1])), .inv 0 (.mut (.put "a" ⟨6, [4]⟩)), .res 1 (.err .keyNotFound),
     .inv 1 (.mut (.delete "a")), .res 0 (.ok none), .res 1 (.ok none)], true)]

def demoCheck : Bool :=
  match exec plain 64 (Dir.fresh : Dir Unit) demo with
  | none => false
  | some p => p.1 == demoHist

theorem demo_life : ∃ d, TLife plain 64 Dir.fresh demo demoHist d := by
  have hc : demoCheck = true := by decide +kernel
  unfold demoCheck at hc
  cases he : exec plain 64 (Dir.fresh : Dir Unit) demo with
  | none => simp [he] at hc
  | some p =>
    obtain ⟨hs, d⟩ := p
    simp only [he, beq_iff_eq] at hc
    subst hc
    exact ⟨d, exec_sound _ he⟩

end DurLin

/-- The hypotheses of C71 are met by two sessions with overlapping calls, the first of which dies inside a call and loses one that has
returned. -/
example : ∃ d, TLife plain 64 Dir.fresh DurLin.demo DurLin.demoHist d ∧ (∀ x ∈ DurLin.demo, x.OrdersOk) ∧
    (∀ h ∈ DurLin.demoHist, ∀ t op, .inv t op ∈ h.1 → opBytes op ≤ 64) ∧ 64 * mutationCount DurLin.demoHist + 8 < 2 ^ 64 := by
  obtain ⟨d, hd⟩ := DurLin.demo_life
  refine ⟨d, hd, ?_, ?_, by decide +kernel⟩
  · intro x hx
    simp only [DurLin.demo, List.mem_cons, List.not_mem_nil, or_false] at hx
    rcases hx with rfl | rfl
    · exact ⟨by intro o ho l; simp at ho; subst ho; exact .refl _, by intro ios h; cases h⟩
    · refine ⟨by intro o ho l; simp at ho; subst ho; exact .refl _, ?_⟩
      intro ios h o ho l
      cases h
      rw [List.eq_of_mem_replicate ho]
      exact .refl _
  · have hall : (DurLin.demoHist.all fun h => h.1.all fun e => match e with | .inv _ op => decide (opBytes op ≤ 64) | _ => true) = true := by
      decide +kernel
    intro h hh t op hi
    have := List.all_eq_true.1 (List.all_eq_true.1 hall h hh) _ hi
    simpa using this

namespace DurLin

def encDemoKey : Bytes := [0x88, 0xC5, 0x1C, 0x53, 0x61, 0x76, 0xAD, 0x8A, 0x8E, 0xE4, 0xA0, 0x6F, 0x62, 0xEE, 0x89, 0x7E]
def encDemoRand : Bytes := [1, 2, 3, 4, 5, 6, 7, 8, 9, 10, 11]

/-- An encrypted session, killed inside the second call. -/
def encDemo : TEncSession where
  key := "88C51C536176AD8A8EE4A06F62EE897E"
  rand := encDemoRand
  evs := [.call 0 (.mut (.put "a" ⟨6, [1]⟩)), .call 1 (.get "a" 6), .lock 0, .work 0 (encDemoKey, encDemoRand), .work 0 (encDemoKey, encDemoRand), .io id, .io id, .io id, .lock 1,
    .work 1 (encDemoKey, encDemoRand), .ret 1, .ret 0, .call 1 (.mut (.put "b" ⟨6, [2]⟩)), .lock 1]
  close := none
  clean := false

def encDemoHist : List (HEv Op Res) :=
  [.inv 0 (.mut (.put "a" ⟨6, [1]⟩)), .inv 1 (.get "a" 6), .res 1 (.ok (some [1])), .res 0 (.ok none), .inv 1 (.mut (.put "b" ⟨6, [2]⟩))]

def encDemoCheck : Bool :=
  match openEnc toy 64 encDemo.key encDemo.rand EncDir.fresh with
  | none => false
  | some s0 => match Threads.run (encrypted toy) { inst := s0 } encDemo.evs with
    | none => false
    | some p => p.2 == encDemoHist && decodeKey encDemo.key == some encDemoKey

end DurLin

/-- The hypotheses of `C71_encrypted` are met. -/
example : ∃ d, decodeKey DurLin.encDemo.key = some DurLin.encDemoKey ∧ (∀ x ∈ [DurLin.encDemo], x.Ok DurLin.encDemo.key DurLin.encDemoKey) ∧
    TEncLife toy 64 EncDir.fresh [DurLin.encDemo] [(DurLin.encDemoHist, false)] d ∧
    (∀ h ∈ [(DurLin.encDemoHist, false)], ∀ t op, .inv t op ∈ h.1 → encOpBytes op ≤ 64) := by
  have hc : DurLin.encDemoCheck = true := by decide +kernel
  unfold DurLin.encDemoCheck at hc
  cases h0 : openEnc toy 64 DurLin.encDemo.key DurLin.encDemo.rand EncDir.fresh with
  | none => simp [h0] at hc
  | some s0 =>
    simp only [h0] at hc
    cases h1 : Threads.run (encrypted toy) { inst := s0 } DurLin.encDemo.evs with
    | none => simp [h1] at hc
    | some p =>
      obtain ⟨s, h⟩ := p
      simp only [h1, Bool.and_eq_true, beq_iff_eq] at hc
      obtain ⟨rfl, hk⟩ := hc
      refine ⟨_, hk, ?_, .cons (x := DurLin.encDemo) h0 h1 (s' := s.inst) ⟨rfl, rfl⟩ (.nil _), ?_⟩
      · intro x hx
        simp only [List.mem_singleton] at hx
        subst hx
        refine ⟨rfl, by decide +kernel, ?_, ?_, by intro ios h; cases h⟩
        · intro t i hi
          simp [DurLin.encDemo] at hi
          rcases hi with ⟨_, rfl⟩ | ⟨_, rfl⟩ <;> exact ⟨rfl, by decide +kernel⟩
        · intro o ho l
          simp [DurLin.encDemo] at ho
          subst ho
          exact .refl _
      have hall : (DurLin.encDemoHist.all fun e => match e with | .inv _ op => decide (encOpBytes op ≤ 64) | _ => true) = true := by
        decide +kernel
      intro h hh t op hi
      simp only [List.mem_singleton] at hh
      subst hh
      have := List.all_eq_true.1 hall _ hi
      simpa using this

end Mmkv
