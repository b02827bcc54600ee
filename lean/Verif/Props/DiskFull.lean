import Verif.Props.Crash
import Verif.Props.Durability
import Verif.Lemmas.Blocks
/-!
# A disk without space: C91

`Full.Run` (Model/Blocks): a process with one store on a disk that finds space for a page of the file only when something is first stored in it.
-/

namespace Mmkv
open Spec Inst
variable {ι : Type}

/-! ### The effects of a step -/

/-- A step of a store either makes stores and resizes inside its file, or has opened it anew. -/
theorem step_space {codecs : ι → Codec} {s s' : Inst ι} {e : Ev ι} {r : Option (Out Unit)} (h : step codecs s e = some (s', r)) :
    (LoggedIn s.lp.cb.ws s'.lp.cb.ws ∧ (s.lp.cb.removed = true → s'.lp.cb.removed = true)) ∨
    (s'.lp.cb.ws.log = [] ∧ s'.lp.cb.removed = false ∧ s'.lp.cb.ws.mmLen = s'.lp.cb.ws.file.length ∧
      s'.lp.cb.ws.file = configNew s.lp.cb.ws.page (if s.lp.cb.removed then [] else s.lp.cb.ws.file)) := by
  have same : ∀ s1 : Inst ι, s1.lp.cb = s.lp.cb → LoggedIn s.lp.cb.ws s1.lp.cb.ws ∧ (s.lp.cb.removed = true → s1.lp.cb.removed = true) := by
    intro s1 h1
    rw [h1]; exact ⟨.rfl' _, id⟩
  have hpush : ∀ j, (Looper.push s.lp j).cb = s.lp.cb := by intro j; unfold Looper.push; split <;> rfl
  have hsend : (Looper.send s.lp).1.cb = s.lp.cb := by
    unfold Looper.send; split
    · split <;> rfl
    · rfl
  have hquit : (Looper.quitSend s.lp).1.cb = s.lp.cb := by
    unfold Looper.quitSend; split
    · split <;> rfl
    · rfl
  cases e with
  | put key token bytes =>
    left
    simp only [step] at h
    split at h
    · cases h
    split at h
    · injection h with h; injection h with h1 h2; subst h1; exact same _ rfl
    split at h
    · injection h with h; injection h with h1 h2; subst h1; exact same _ rfl
    · injection h with h; injection h with h1 h2; subst h1; exact same _ rfl
  | delete key =>
    left
    simp only [step] at h
    split at h
    · cases h
    split at h
    · injection h with h; injection h with h1 h2; subst h1; exact same _ rfl
    split at h
    · injection h with h; injection h with h1 h2; subst h1; exact same _ rfl
    split at h
    · injection h with h; injection h with h1 h2; subst h1; exact same _ rfl
    · injection h with h; injection h with h1 h2; subst h1; exact same _ rfl
  | clear =>
    left
    simp only [step] at h
    split at h
    · cases h
    split at h
    · injection h with h; injection h with h1 h2; subst h1; exact same _ rfl
    split at h
    · injection h with h; injection h with h1 h2; subst h1; exact same _ rfl
    · injection h with h; injection h with h1 h2; subst h1; exact same _ rfl
  | drop =>
    left
    simp only [step] at h
    split at h
    · cases h
    · injection h with h; injection h with h1 h2; subst h1; exact same _ rfl
  | io o =>
    left
    simp only [step] at h
    split at h
    · cases h
    rename_i lp hl
    injection h with h; injection h with h1 h2; subst h1
    unfold Looper.ioStep at hl
    split at hl
    · split at hl
      · injection hl with hl; subst hl; exact same _ rfl
      · injection hl with hl; subst hl; exact same _ rfl
      · split at hl
        · cases hl
        · injection hl with hl; subst hl; exact same _ rfl
    · injection hl with hl; subst hl; exact same _ rfl
    · split at hl
      · injection hl with hl; subst hl; exact same _ rfl
      rename_i j rest hb
      have hj : LoggedIn s.lp.cb.ws (execJob (codecs s.idx) o j s.lp.cb).state.ws ∧ (s.lp.cb.removed = true → (execJob (codecs s.idx) o j s.lp.cb).state.removed = true) := by
        cases j with
        | remove => exact ⟨.rfl' _, fun _ => rfl⟩
        | write b dup =>
          have hw := loggedIn_write (c := codecs s.idx) o b dup s.lp.cb.ws
          simp only [execJob]
          cases hr : s.lp.cb.ws.write (codecs s.idx) o b dup with
          | done ws => rw [hr] at hw; exact ⟨hw, id⟩
          | panic ws => rw [hr] at hw; exact ⟨hw, id⟩
      split at hl
      · rename_i cb hx; rw [show execJob (codecs s.idx) o j s.lp.cb = _ from hx] at hj; injection hl with hl; subst hl; exact hj
      · rename_i cb hx; rw [show execJob (codecs s.idx) o j s.lp.cb = _ from hx] at hj; injection hl with hl; subst hl; exact hj
    · injection hl with hl; subst hl; exact same _ rfl
    · cases hl
    · cases hl
  | api i =>
    simp only [step] at h
    split at h
    · cases h
    · cases h
    · injection h with h; injection h with h1 h2; subst h1; exact .inl (same _ (hpush _))
    · injection h with h; injection h with h1 h2; subst h1; exact .inl (same _ hsend)
    · injection h with h; injection h with h1 h2; subst h1; exact .inl (same _ (hpush _))
    · split at h
      · injection h with h; injection h with h1 h2; subst h1; exact .inl (same _ hsend)
      · injection h with h; injection h with h1 h2; subst h1; exact .inl (same _ hsend)
    · split at h
      · injection h with h; injection h with h1 h2; subst h1; exact .inl (same _ hquit)
      · injection h with h; injection h with h1 h2; subst h1; exact .inl (same _ hquit)
    · split at h
      · injection h with h; injection h with h1 h2; subst h1; exact .inl (same _ rfl)
      split at h
      · injection h with h; injection h with h1 h2; subst h1; exact .inl (same _ rfl)
      · cases h
    · split at h
      · injection h with h; injection h with h1 h2; subst h1; exact .inl (same _ rfl)
      rename_i s2 ho
      have hn : s2.lp.cb.ws.log = [] ∧ s2.lp.cb.removed = false ∧ s2.lp.cb.ws.mmLen = s2.lp.cb.ws.file.length ∧
          s2.lp.cb.ws.file = configNew s.lp.cb.ws.page (if s.lp.cb.removed then [] else s.lp.cb.ws.file) := by
        unfold openAt at ho
        split at ho
        · cases ho
        rename_i o hs
        injection ho with ho; subst ho
        unfold openStore at hs
        simp only [] at hs
        split at hs
        · cases hs
        split at hs
        · cases hs
        injection hs with hs; subst hs
        exact ⟨rfl, rfl, rfl, rfl⟩
      split at h
      · injection h with h; injection h with h1 h2; subst h1; exact .inr hn
      split at h
      · injection h with h; injection h with h1 h2; subst h1; exact .inr hn
      split at h
      · injection h with h; injection h with h1 h2; subst h1; exact .inr hn
      · cases h

/-- **C91**, what is true: a process is killed for lack of space only when its file is longer than the space there is for it (`T` blocks of `os` bytes,
whatever other programs do as long as they leave that much) - or when the file has just been removed by `clear_data`.
Missing from C91: the process should not be killed then either (`C91_refuted`). -/
theorem C91_partial {codecs : ι → Codec} {os T : Nat} {s : Inst ι} {d : Blocks} {es : List (Full.DEv ι)} {rs : List (Out Unit)} {f : Bytes}
    (hm : s.lp.cb.ws.mmLen ≤ s.lp.cb.ws.file.length) (hd : Space os T d s.lp.cb.ws.file.length) (ho : ∀ n, Full.DEv.other n ∈ es → T ≤ n)
    (h : Full.Run codecs os s d es (.killed f) rs) : f = [] ∨ T * os < f.length := by
  generalize hst : Full.Status.killed f = st at h
  induction h with
  | nil => cases hst
  | @other s d n es st rs rest ih =>
    refine ih hm ⟨hd.nodup, hd.inside, ?_⟩ (fun m hm => ho m (List.mem_cons_of_mem _ hm)) hst
    have := ho n List.mem_cons_self
    show T ≤ d.held.length + n
    omega
  | @killed s s' d f' e r es h hk =>
    cases hst
    split
    · exact .inl rfl
    right
    rcases step_space h with ⟨hl, _⟩ | ⟨h1, _⟩
    · obtain ⟨_, effs, g1, g2, g3⟩ := hl hm
      rw [show Full.effects s s' = effs by unfold Full.effects; rw [g1, List.drop_left' rfl]] at hk
      exact (hd.onDisk hk g3).2 rfl
    · rw [show Full.effects s s' = [] by unfold Full.effects; rw [h1, List.drop_nil]] at hk
      cases hk
  | @step s s' d d' f' e r es st rs h hk rest ih =>
    refine ih ?_ ?_ (fun m hm => ho m (List.mem_cons_of_mem _ hm)) hst
    · rcases step_space h with ⟨hl, _⟩ | ⟨_, _, h3, _⟩
      · exact (hl hm).1
      · exact Nat.le_of_eq h3
    · rcases step_space h with ⟨hl, hr⟩ | ⟨h1, h2, h3, h4⟩
      · obtain ⟨_, effs, g1, g2, g3⟩ := hl hm
        rw [show Full.effects s s' = effs by unfold Full.effects; rw [g1, List.drop_left' rfl]] at hk
        have hsp := (hd.onDisk hk g3).1 d' rfl
        rw [onDisk_done hk, g2] at hsp
        unfold Full.spaceAfter
        split
        · rename_i hc
          simp only [Bool.and_eq_true, Bool.not_eq_true'] at hc
          rw [hr hc.1] at hc
          cases hc.2
        · exact hsp
      · rw [show Full.effects s s' = [] by unfold Full.effects; rw [h1, List.drop_nil]] at hk
        cases hk
        unfold Full.spaceAfter
        rw [h2]
        cases hrm : s.lp.cb.removed with
        | true =>
          exact ⟨List.nodup_nil, fun p hp => absurd hp List.not_mem_nil, by simpa using hd.total⟩
        | false =>
          rw [hrm] at h4
          refine ⟨hd.nodup, fun p hp => Nat.lt_of_lt_of_le (hd.inside p hp) ?_, hd.total⟩
          rw [h4]
          unfold configNew
          simp only [Bool.false_eq_true, if_false]
          split
          · omega
          · exact Nat.le_refl _

/-! ### What an append leaves -/

/-- A store whose blocks get no space at all stores nothing. -/
theorem splice_same {file bs' : Bytes} {off : Nat} (hin : off + bs'.length ≤ file.length) (h : ∀ (i : Nat) (x : UInt8), bs'[i]? = some x → file[off + i]? = some x) :
    splice file off bs' = file := by
  have he : bs' = (file.drop off).take bs'.length := by
    apply List.ext_getElem?
    intro i
    by_cases hi : i < bs'.length
    · rw [List.getElem?_take_of_lt hi, List.getElem?_drop, List.getElem?_eq_getElem hi]
      exact (h i _ (List.getElem?_eq_getElem hi)).symm
    · rw [List.getElem?_eq_none (by omega), List.getElem?_eq_none (by simp; omega)]
  unfold splice
  conv => lhs; rw [he]
  have hl : ((file.drop off).take bs'.length).length = bs'.length := by simp; omega
  rw [hl, ← List.drop_drop, List.append_assoc, List.take_append_drop, List.take_append_drop]

/-- The eight bytes of the length header lie in one block: for lack of space they are never half stored. -/
theorem onDisk_header {os : Nat} (hos : 8 ≤ os) {d : Blocks} {file H f : Bytes} {off : Nat} {r : Bytes} {x : Option Blocks} (hH : H.length = 8) (hoff : 8 ≤ off)
    (hin : off + r.length ≤ file.length) (h : OnDisk os d file [.store 0 H, .store off r] x f) : f = file ∨ f.take 8 = H := by
  have hsp : ∀ (g bs : Bytes), 8 ≤ off → off + bs.length ≤ g.length → (splice g off bs).take 8 = g.take 8 := by
    intro g bs h8 hl
    unfold splice
    rw [List.append_assoc, List.take_append_of_le_length (by simp; omega), List.take_take, Nat.min_eq_left h8]
  have hH8 : (splice file 0 H).take 8 = H := by
    unfold splice
    rw [List.take_zero, List.nil_append, List.take_left' hH]
  have hlen : (splice file 0 H).length = file.length := splice_length _ _ _ (by omega)
  cases h with
  | store ht rest =>
    right
    cases rest with
    | store ht' rest' =>
      cases rest'
      rw [hsp _ _ hoff (by omega), hH8]
    | killed ps p bs' _ _ _ _ hl _ => rw [hsp _ _ hoff (by omega), hH8]
  | killed ps p bs' hps hd hp hfull hl hmix =>
    left
    have hblk : ∀ q ∈ blocksOf os 0 H.length, q = 0 := by
      intro q hq
      have := (mem_blocksOf.1 hq).2.2
      rw [hH, Nat.div_eq_of_lt (by omega)] at this
      omega
    have hp0 := hblk p hp
    subst hp0
    obtain ⟨h1, _⟩ := touch_none hfull
    apply splice_same (by omega)
    intro i y hy
    rcases hmix i y hy with hg | ⟨_, hg⟩
    · exact hg
    · rw [Nat.zero_add, Nat.div_eq_of_lt (by
        have : i < bs'.length := by
          rcases Nat.lt_or_ge i bs'.length with hlt | hge
          · exact hlt
          · rw [List.getElem?_eq_none hge] at hy; cases hy
        omega)] at hg
      exact absurd hg h1

/-- **C91**, what is true of the data: when the process is killed for lack of space inside an append, reopening shows the map before or after it, unless the
bytes in the place of the new record have a wrong length field or a checksum that happens to match.  (The length header is never half stored, so the
first case of `C11_partial` does not arise.)  Missing from C91: those two cases; `C91_refuted` shows that the first one is what happens. -/
theorem C91_saved_partial {os : Nat} (hos : 8 ≤ os) {s : WState} {items : List (Option Buffer)} (h : AtRest s items) {m : Mutation}
    (hm : Recorded m) (hsz : header s.file + (recordOf m).length + 8 < 2 ^ 64) (order : Order) (dup : Bool)
    (hroom : Appends s dup m) {S : Store} (hS : FileShows s.file S) {d : Blocks} {f : Bytes}
    (hkill : OnDisk os d s.file (s.effects crcCodec order (bufOf m) dup) none f) :
    (f.drop 8).take (header s.file) = (s.file.drop 8).take (header s.file) ∧
    (FileShows f S ∨ FileShows f (S.apply m) ∨
      (header f = header s.file + (recordOf m).length ∧
        ∃ t, t = (f.drop (8 + header s.file)).take (recordOf m).length ∧ t ≠ recordOf m ∧ (t.take 4 ≠ (recordOf m).take 4 ∨ ChecksumOk t))) := by
  refine ⟨C11_old_records_untouched h hm order dup hroom (onDisk_crash hkill), ?_⟩
  rcases C11_partial h hm hsz order dup hroom hS (onDisk_crash hkill) with h1 | h1 | ⟨h1, h2⟩ | h1
  · exact .inl h1
  · exact .inr (.inl h1)
  · exfalso
    obtain ⟨content, hv, hc⟩ := h.valid
    have henc := enc_recordOf hm items.length
    have hr := hroom
    unfold Appends at hr
    rw [hc] at hsz hr h2
    have hhead : ∀ n, n < 2 ^ 64 → f.take 8 = beBytes 8 n → header f = n := by
      intro n hn hf
      unfold header
      rw [hf, beVal_beBytes _ _ (by omega)]
    by_cases hfit : content.length + 8 + (recordOf m).length ≤ s.file.length
    · rw [effects_fit order (bufOf m) dup hv henc hfit] at hkill
      rcases onDisk_header hos (by simp) (by omega) hfit hkill with rfl | hh
      · exact h1 rfl
      · exact h2 ((hhead _ (by omega) hh).trans (Nat.add_comm _ _))
    · obtain ⟨hnt, hle⟩ : (s.needTrim || dup) = false ∧ 8 + content.length + (recordOf m).length ≤ s.file.length + s.page := by
        rcases hr with hr | hr
        · omega
        · exact hr
      rw [effects_expand order (bufOf m) dup hv h.disk hnt henc (by omega) (by omega)] at hkill
      cases hkill with
      | setLen rest =>
        have hlen : (Eff.apply s.file (.setLen (s.file.length + s.page))).length = s.file.length + s.page := by
          simp [Eff.apply, zeros]
        rcases onDisk_header hos (by simp) (by omega) (by omega) rest with rfl | hh
        · apply h1
          unfold header
          have h8 := hv.holds.len
          simp only [Eff.apply]
          rw [List.take_append_of_le_length (by simp; omega), List.take_take, Nat.min_eq_left (by omega)]
        · exact h2 ((hhead _ (by omega) hh).trans (Nat.add_comm _ _))
  · exact .inr (.inr h1)

/-! ### C91 is false -/

/-- **C91 is false**, in every state: the next record does not fit, no compaction is due, and the disk has no space beyond the file's own blocks.  Whatever the
order in which bytes are copied, the process is killed (and it can happen).  If the file was exactly full, the directory cannot be opened any more, in
every case - everything that was saved before is out of reach. -/
theorem C91_refuted {os : Nat} (hos : 8 ≤ os) {s : WState} {items : List (Option Buffer)} (h : AtRest s items) {m : Mutation}
    (hm : Recorded m) (hsz : header s.file + (recordOf m).length + 8 < 2 ^ 64) (order : Order) (dup : Bool) (hnt : (s.needTrim || dup) = false)
    (hfull : s.file.length < 8 + header s.file + (recordOf m).length) (hfit : 8 + header s.file + (recordOf m).length ≤ s.file.length + s.page)
    {n : Nat} (hn : s.file.length = n * os) {d : Blocks} (hheld : ∀ p, p ∈ d.held ↔ p < n) (hfree : d.free = 0) :
    (∃ f, OnDisk os d s.file (s.effects crcCodec order (bufOf m) dup) none f) ∧
    ∀ r f, OnDisk os d s.file (s.effects crcCodec order (bufOf m) dup) r f →
      r = none ∧ (8 + header s.file = s.file.length → ∀ page, openAt plain () page f = none) := by
  obtain ⟨content, hv, hc⟩ := h.valid
  rw [hc] at hsz hfull hfit ⊢
  have henc := enc_recordOf hm items.length
  rw [effects_expand order (bufOf m) dup hv h.disk hnt henc (by omega) (by omega)]
  have hrl : 5 ≤ (recordOf m).length := by rw [hm.rec.1]; simp [record]; omega
  obtain ⟨_, tail, hfile⟩ := hv.holds
  have hflen : s.file.length = 8 + content.length + tail.length := by rw [hfile]; simp; omega
  have hgrow : Eff.apply s.file (.setLen (s.file.length + s.page)) = s.file ++ zeros s.page := by
    simp only [Eff.apply]
    rw [List.take_of_length_le (by omega), Nat.add_sub_cancel_left]
  have hn0 : 0 < n := by
    rcases Nat.eq_zero_or_pos n with h0 | h0
    · subst h0; omega
    · exact h0
  -- the header finds its block, the record does not find its last one
  have hhd : ∀ q ∈ blocksOf os 0 (beBytes 8 ((recordOf m).length + content.length)).length, q ∈ d.held := by
    intro q hq
    have h2 := (mem_blocksOf.1 hq).2.2
    rw [beBytes_length, Nat.div_eq_of_lt (by omega)] at h2
    exact (hheld q).2 (by omega)
  have hlast : (content.length + 8 + (recordOf m).length - 1) / os ∈ blocksOf os (content.length + 8) (recordOf m).length :=
    mem_blocksOf.2 ⟨by omega, Nat.div_le_div_right (by omega), Nat.le_refl _⟩
  have hlast' : (content.length + 8 + (recordOf m).length - 1) / os ∉ d.held := by
    intro hin
    have h1 := (hheld _).1 hin
    have h2 : n ≤ (content.length + 8 + (recordOf m).length - 1) / os := (Nat.le_div_iff_mul_le (by omega)).2 (by omega)
    omega
  have htouch : d.touch ((content.length + 8 + (recordOf m).length - 1) / os) = none := by
    unfold Blocks.touch
    rw [if_neg (by simpa using hlast'), if_pos hfree]
  have hH := touchAll_held hhd
  constructor
  · refine ⟨_, .setLen (.store hH (.killed [] _ (((splice (Eff.apply s.file (.setLen (s.file.length + s.page))) 0 (beBytes 8 ((recordOf m).length + content.length))).drop (content.length + 8)).take (recordOf m).length) ?_ rfl hlast htouch ?_ ?_))⟩
    · intro q hq; cases hq
    · rw [List.length_take, List.length_drop, splice_length _ _ _ (by rw [hgrow]; simp; omega), hgrow]
      simp [zeros]; omega
    · intro i x hx
      left
      rw [List.getElem?_take] at hx
      split at hx
      · rwa [List.getElem?_drop] at hx
      · cases hx
  · intro r f ho
    cases ho with
    | setLen ho =>
    cases ho with
    | killed ps p bs' hps hd hp hfull' _ _ =>
      exact absurd ((touchAll_some hd).2.1 p (hhd p hp)) (touch_none hfull').1
    | @store _ d' _ _ _ _ _ _ ht rest =>
      have hd' : d' = d := (touchAll_some ht).2.2.2.2.2 hfree
      subst hd'
      cases rest with
      | store ht' _ =>
        have hd2 := (touchAll_some ht').2.2.2.2.2 hfree
        have := (touchAll_some ht').1 _ hlast
        rw [hd2] at this
        exact absurd this hlast'
      | @killed _ d1 _ _ _ _ ps p bs' hps hd hp hfull' hlen hmix =>
        refine ⟨rfl, fun hex page => ?_⟩
        have hd1 : d1 = d' := (touchAll_some hd).2.2.2.2.2 hfree
        subst hd1
        have htail : tail = [] := List.length_eq_zero_iff.1 (by omega)
        have hspl : splice (Eff.apply s.file (.setLen (s.file.length + s.page))) 0 (beBytes 8 ((recordOf m).length + content.length)) =
            beBytes 8 ((recordOf m).length + content.length) ++ content ++ zeros s.page := by
          rw [hgrow, hfile, htail]
          have := splice_mid [] (beBytes 8 content.length) (content ++ zeros s.page) (beBytes 8 ((recordOf m).length + content.length)) (by simp)
          simpa using this
        rw [hspl] at hmix ⊢
        rw [splice_same (by rw [hlen]; simp [zeros]; omega) (fun i x hx => ?_)]
        · exact openAt_zeros hv.framed (by omega) (by omega) (by simp [zeros]; omega)
            (by unfold zeros; rw [List.take_replicate, Nat.min_eq_left (by omega)]) page
        · rcases hmix i x hx with hg | ⟨_, hg⟩
          · exact hg
          · exfalso
            have h1 := (hheld _).1 hg
            have h2 : n ≤ (content.length + 8 + i) / os := (Nat.le_div_iff_mul_le (by omega)).2 (by omega)
            omega

/-- The hypotheses of `C91_refuted` at a file of one block that is exactly full. -/
example : ∃ s items m, AtRest s items ∧ Recorded m ∧ header s.file + (recordOf m).length + 8 < 2 ^ 64 ∧ (s.needTrim || false) = false ∧
    s.file.length < 8 + header s.file + (recordOf m).length ∧ 8 + header s.file + (recordOf m).length ≤ s.file.length + s.page ∧ s.file.length = 1 * 64 ∧
    8 + header s.file = s.file.length := by
  refine ⟨{ file := fileOf [recordOf (.put "a" ⟨2, [1]⟩), recordOf (.put "b" ⟨6, List.replicate 31 7⟩)] [], mmLen := 64, page := 64, position := 2, needTrim := false },
    [some ⟨"a", 2, [1]⟩, some ⟨"b", 6, List.replicate 31 7⟩], .put "c" ⟨2, [1]⟩, ⟨by decide +kernel, by decide +kernel, rfl, rfl, rfl⟩, ⟨by decide, by decide +kernel⟩, ?_⟩
  decide +kernel

/-! ### End to end -/

namespace Full

/-- The space after effects that all find some, touched in order. -/
def spaceFor (os : Nat) : Blocks → List Eff → Option Blocks
  | d, [] => some d
  | d, .store off bs :: es => match d.touchAll (blocksOf os off bs.length) with
    | none => none
    | some d' => spaceFor os d' es
  | d, .setLen _ :: es => spaceFor os d es

theorem onDisk_spaceFor {os : Nat} {effs : List Eff} : ∀ {d d' : Blocks} {file : Bytes}, spaceFor os d effs = some d' → OnDisk os d file effs (some d') (effs.foldl Eff.apply file) := by
  induction effs with
  | nil => intro d d' file h; injection h with h; subst h; exact .done _ _
  | cons e es ih =>
    intro d d' file h
    cases e with
    | setLen n => exact .setLen (ih h)
    | store off bs =>
      simp only [spaceFor] at h
      split at h
      · cases h
      · rename_i d1 h1
        exact .store h1 (ih h)

/-- A run in which every store finds space. -/
def exec (codecs : ι → Codec) (os : Nat) : Inst ι → Blocks → List (Ev ι) → Option (Inst ι × Blocks × List (Out Unit))
  | s, d, [] => some (s, d, [])
  | s, d, e :: es => match step codecs s e with
    | none => none
    | some (s', r) => match spaceFor os d (effects s s') with
      | none => none
      | some d' => match exec codecs os s' (spaceAfter s s' d') es with
        | none => none
        | some (s'', d'', rs) => some (s'', d'', r.toList ++ rs)

/-- Such a run, and then what follows. -/
theorem exec_then {codecs : ι → Codec} {os : Nat} {es : List (Ev ι)} : ∀ {s s' : Inst ι} {d d' : Blocks} {rs rs' : List (Out Unit)} {more : List (DEv ι)} {st : Status ι},
    exec codecs os s d es = some (s', d', rs) → Run codecs os s' d' more st rs' → Run codecs os s d (es.map .ev ++ more) st (rs ++ rs') := by
  induction es with
  | nil =>
    intro s s' d d' rs rs' more st h hr
    simp only [exec, Option.some.injEq, Prod.mk.injEq] at h
    obtain ⟨rfl, rfl, rfl⟩ := h
    exact hr
  | cons e es ih =>
    intro s s' d d' rs rs' more st h hr
    simp only [exec] at h
    split at h
    · cases h
    rename_i s1 r h1
    split at h
    · cases h
    rename_i d1 h2
    split at h
    · cases h
    rename_i s2 d2 rs2 h3
    simp only [Option.some.injEq, Prod.mk.injEq] at h
    obtain ⟨rfl, rfl, rfl⟩ := h
    rw [List.append_assoc]
    exact .step h1 (onDisk_spaceFor h2) (ih h3 hr)

end Full

/-- **C91 is false**, end to end: 64-byte pages and blocks, a disk with one block.  `b` is put and saved, then `a` is put and saved, then `a` gets a value of 40 bytes; every call
returns `Ok`.  The compaction writes `a` and then finds no space for `b`: the process is killed, and when the directory is opened again `b` - saved
before, and never touched since - is gone. -/
theorem C91_refuted_loses : ∃ s0 es rs f i, openAt plain () 64 [] = some s0 ∧
    es = fullPut "b" 2 [0] ++ fullPut "a" 2 [1] ++ [.put "a" 6 (List.replicate 40 7), .api (), .api (), .io idOrder, .io idOrder, .io idOrder] ∧
    Full.Run plain 64 s0 { held := [], free := 1 } (es.map .ev) (.killed f) rs ∧ rs = [.ok (), .ok (), .ok ()] ∧
    openAt plain () 64 f = some i ∧ i.getAs "b" 2 (Out.ok : Bytes → Out Bytes) = .err .keyNotFound ∧
    i.getAs "a" 6 (Out.ok : Bytes → Out Bytes) = .ok (List.replicate 40 7) := by
  let es0 : List (Ev Unit) := fullPut "b" 2 [0] ++ fullPut "a" 2 [1] ++ [.put "a" 6 (List.replicate 40 7), .api (), .api (), .io idOrder, .io idOrder]
  let f0 : Bytes := beBytes 8 65 ++ recordOf (.put "a" ⟨6, List.replicate 40 7⟩) ++ zeros 68
  let f : Bytes := splice f0 60 ([0, 0, 0, 9] ++ zeros 9)
  have h : (match openAt plain () 64 [] with
    | none => false
    | some s0 => match Full.exec plain 64 s0 { held := [], free := 1 } es0 with
      | none => false
      | some (s, d, rs) => match step plain s (.io idOrder) with
        | some (s', none) => decide (rs = [.ok (), .ok (), .ok ()] ∧ s.lp.cb.removed = false ∧ d.held = [0] ∧ d.free = 0 ∧
            Full.effects s s' = [.store 0 (beBytes 8 0), .store 0 (beBytes 8 52), .store 8 (recordOf (.put "a" ⟨6, List.replicate 40 7⟩)), .setLen 128, .store 0 (beBytes 8 65),
              .store 60 (recordOf (.put "b" ⟨2, [0]⟩))] ∧
            ([.store 0 (beBytes 8 0), .store 0 (beBytes 8 52), .store 8 (recordOf (.put "a" ⟨6, List.replicate 40 7⟩)), .setLen 128, .store 0 (beBytes 8 65)] : List Eff).foldl Eff.apply s.lp.cb.ws.file = f0)
        | _ => false) = true := by decide +kernel
  have ho : (match openAt plain () 64 f with
    | some i => decide (i.getAs "b" 2 (Out.ok : Bytes → Out Bytes) = .err .keyNotFound ∧ i.getAs "a" 6 (Out.ok : Bytes → Out Bytes) = .ok (List.replicate 40 7))
    | none => false) = true := by decide +kernel
  split at h
  · cases h
  rename_i s0 h0
  split at h
  · cases h
  rename_i s d rs h1
  split at h
  rotate_left
  · cases h
  rename_i s' h2
  simp only [decide_eq_true_eq] at h
  obtain ⟨g1, g2, g3, g4, g5, g6⟩ := h
  split at ho
  rotate_left
  · cases ho
  rename_i i hi
  simp only [decide_eq_true_eq] at ho
  refine ⟨s0, _, rs, f, i, h0, rfl, ?_, g1, hi, ho.1, ho.2⟩
  have hd : d = { held := [0], free := 0 } := by
    cases d; simp only at g3 g4; rw [g3, g4]
  subst hd
  have hk : Full.Run plain 64 s { held := [0], free := 0 } [.ev (.io idOrder)] (.killed (if s.lp.cb.removed then [] else f)) [] := by
    refine .killed h2 ?_
    rw [g5]
    refine .store (d' := { held := [0], free := 0 }) (by decide +kernel) (.store (d' := { held := [0], free := 0 }) (by decide +kernel) (.store (d' := { held := [0], free := 0 }) (by decide +kernel)
      (.setLen (.store (d' := { held := [0], free := 0 }) (by decide +kernel) ?_))))
    have hg : splice (Eff.apply (splice (splice (splice s.lp.cb.ws.file 0 (beBytes 8 0)) 0 (beBytes 8 52)) 8 (recordOf (.put "a" ⟨6, List.replicate 40 7⟩))) (.setLen 128)) 0 (beBytes 8 65) = f0 := g6
    rw [hg]
    refine .killed [] 1 ([0, 0, 0, 9] ++ zeros 9) (fun q hq => absurd hq List.not_mem_nil) rfl (by decide +kernel) (by decide +kernel) (by decide +kernel) ?_
    intro k x hx
    have hmix : ∀ k < 13, (([0, 0, 0, 9] ++ zeros 9 : Bytes))[k]? = f0[60 + k]? ∨
        ((([0, 0, 0, 9] ++ zeros 9 : Bytes))[k]? = (recordOf (.put "b" ⟨2, [0]⟩))[k]? ∧ (60 + k) / 64 ∈ [0]) := by decide +kernel
    by_cases hlt : k < 13
    · rcases hmix k hlt with hm | ⟨hm, hb⟩
      · exact .inl (by rw [← hm]; exact hx)
      · exact .inr ⟨by rw [← hm]; exact hx, hb⟩
    · rw [List.getElem?_eq_none (by simp [zeros]; omega)] at hx; cases hx
  rw [g2] at hk
  have := Full.exec_then h1 hk
  rw [List.append_nil] at this
  exact this

/-- The hypotheses of `C91_partial` at the start of that run: one block for a file of 64 bytes; the file it left has 128. -/
example : ∃ s0, openAt plain () 64 [] = some s0 ∧ s0.lp.cb.ws.mmLen ≤ s0.lp.cb.ws.file.length ∧ Space 64 1 { held := [], free := 1 } s0.lp.cb.ws.file.length := by
  have h : (match openAt plain () 64 [] with
    | some s0 => decide (s0.lp.cb.ws.mmLen ≤ s0.lp.cb.ws.file.length)
    | none => false) = true := by decide +kernel
  split at h
  · rename_i s0 h0
    exact ⟨s0, h0, by simpa using h, List.nodup_nil, fun p hp => absurd hp List.not_mem_nil, Nat.le_refl _⟩
  · cases h

end Mmkv
