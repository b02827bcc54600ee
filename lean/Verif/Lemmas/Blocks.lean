import Verif.Model.Blocks
import Verif.Lemmas.Crash
/-! Space for a file: what touching blocks does, and what a lack of space leaves. -/

namespace Mmkv
open Spec

theorem touch_none {d : Blocks} {p : Nat} (h : d.touch p = none) : p ∉ d.held ∧ d.free = 0 := by
  unfold Blocks.touch at h
  split at h
  · cases h
  rename_i hc
  split at h
  · rename_i hf
    exact ⟨by simpa using hc, hf⟩
  · cases h

/-- What a successful touch leaves. -/
theorem touch_some {d d' : Blocks} {p : Nat} (h : d.touch p = some d') :
    p ∈ d'.held ∧ (∀ q ∈ d.held, q ∈ d'.held) ∧ (∀ q ∈ d'.held, q ∈ d.held ∨ q = p) ∧ d'.held.length + d'.free = d.held.length + d.free ∧
      (d.held.Nodup → d'.held.Nodup) ∧ (d.free = 0 → d' = d) := by
  unfold Blocks.touch at h
  split at h
  · rename_i hc
    injection h with h; subst h
    exact ⟨by simpa using hc, fun q hq => hq, fun q hq => .inl hq, rfl, id, fun _ => rfl⟩
  rename_i hc
  split at h
  · cases h
  rename_i hf
  injection h with h; subst h
  refine ⟨List.mem_cons_self, fun q hq => List.mem_cons_of_mem _ hq, fun q hq => ?_, ?_, fun hn => ?_, fun h0 => absurd h0 hf⟩
  · rcases List.mem_cons.1 hq with rfl | hq
    · exact .inr rfl
    · exact .inl hq
  · simp only [List.length_cons]; omega
  · exact List.nodup_cons.2 ⟨by simpa using hc, hn⟩

theorem touchAll_some {ps : List Nat} : ∀ {d d' : Blocks}, d.touchAll ps = some d' →
    (∀ p ∈ ps, p ∈ d'.held) ∧ (∀ q ∈ d.held, q ∈ d'.held) ∧ (∀ q ∈ d'.held, q ∈ d.held ∨ q ∈ ps) ∧ d'.held.length + d'.free = d.held.length + d.free ∧
      (d.held.Nodup → d'.held.Nodup) ∧ (d.free = 0 → d' = d) := by
  induction ps with
  | nil =>
    intro d d' h
    injection h with h; subst h
    exact ⟨fun p hp => absurd hp List.not_mem_nil, fun q hq => hq, fun q hq => .inl hq, rfl, id, fun _ => rfl⟩
  | cons p ps ih =>
    intro d d' h
    simp only [Blocks.touchAll] at h
    split at h
    · cases h
    rename_i d1 h1
    obtain ⟨a1, a2, a3, a4, a5, a6⟩ := touch_some h1
    obtain ⟨b1, b2, b3, b4, b5, b6⟩ := ih h
    refine ⟨fun q hq => ?_, fun q hq => b2 q (a2 q hq), fun q hq => ?_, by omega, fun hn => b5 (a5 hn), fun h0 => ?_⟩
    · rcases List.mem_cons.1 hq with rfl | hq
      · exact b2 _ a1
      · exact b1 q hq
    · rcases b3 q hq with hq | hq
      · rcases a3 q hq with hq | rfl
        · exact .inl hq
        · exact .inr List.mem_cons_self
      · exact .inr (List.mem_cons_of_mem _ hq)
    · have e := a6 h0
      subst e
      exact b6 h0

theorem touchAll_none {ps : List Nat} : ∀ {d : Blocks}, d.touchAll ps = none → ∃ p ∈ ps, ∃ ps' d1, (∀ q ∈ ps', q ∈ ps) ∧ d.touchAll ps' = some d1 ∧ d1.touch p = none := by
  induction ps with
  | nil => intro d h; cases h
  | cons p ps ih =>
    intro d h
    simp only [Blocks.touchAll] at h
    split at h
    · rename_i h1
      exact ⟨p, List.mem_cons_self, [], d, fun q hq => absurd hq List.not_mem_nil, rfl, h1⟩
    · rename_i d1 h1
      obtain ⟨q, hq, ps', d2, g1, g2, g3⟩ := ih h
      refine ⟨q, List.mem_cons_of_mem _ hq, p :: ps', d2, fun x hx => ?_, ?_, g3⟩
      · rcases List.mem_cons.1 hx with rfl | hx
        · exact List.mem_cons_self
        · exact List.mem_cons_of_mem _ (g1 x hx)
      · simp only [Blocks.touchAll, h1]; exact g2

/-- Blocks that have space can be touched. -/
theorem touchAll_held {ps : List Nat} {d : Blocks} (h : ∀ p ∈ ps, p ∈ d.held) : d.touchAll ps = some d := by
  induction ps with
  | nil => rfl
  | cons p ps ih =>
    simp only [Blocks.touchAll, Blocks.touch]
    rw [if_pos (by simpa using h p List.mem_cons_self)]
    exact ih fun q hq => h q (List.mem_cons_of_mem _ hq)

theorem mem_blocksOf {os off len p : Nat} : p ∈ blocksOf os off len ↔ 0 < len ∧ off / os ≤ p ∧ p ≤ (off + len - 1) / os := by
  unfold blocksOf
  split
  · rename_i h
    constructor
    · intro hp; exact absurd hp List.not_mem_nil
    · rintro ⟨h1, _⟩; omega
  · rename_i h
    rw [List.range_eq_range', List.drop_range', List.mem_range'_1]
    have : off / os ≤ (off + len - 1) / os := Nat.div_le_div_right (by omega)
    omega

theorem blocksOf_lt {os off len p : Nat} (h : p ∈ blocksOf os off len) : p * os < off + len := by
  obtain ⟨h1, _, h2⟩ := mem_blocksOf.1 h
  have h3 := Nat.mul_le_mul_right os h2
  have h4 := Nat.div_mul_le_self (off + len - 1) os
  omega

theorem div_mem_blocksOf {os off len i : Nat} (h : i < len) : (off + i) / os ∈ blocksOf os off len :=
  mem_blocksOf.2 ⟨by omega, Nat.div_le_div_right (by omega), Nat.div_le_div_right (by omega)⟩

/-- A run of effects that had the space is the run of the effects. -/
theorem onDisk_done {os : Nat} {d d' : Blocks} {file f : Bytes} {effs : List Eff} (h : OnDisk os d file effs (some d') f) : f = effs.foldl Eff.apply file := by
  generalize hr : some d' = r at h
  induction h with
  | done => rfl
  | store _ _ ih => exact ih hr
  | killed => cases hr
  | setLen _ ih => exact ih hr

/-- What a lack of space leaves is what a death of the process could leave (`Crash`). -/
theorem onDisk_crash {os : Nat} {d : Blocks} {file f : Bytes} {effs : List Eff} (h : OnDisk os d file effs none f) : Crash file effs f := by
  generalize hr : (none : Option Blocks) = r at h
  induction h with
  | done => cases hr
  | store _ _ ih => exact .later _ _ _ _ (ih hr)
  | killed ps p bs' _ _ _ _ hlen hmix =>
    refine .torn _ _ _ _ _ hlen fun i x hx => ?_
    rcases hmix i x hx with h1 | ⟨h1, _⟩
    · exact .inr h1
    · exact .inl h1
  | setLen _ ih => exact .later _ _ _ _ (ih hr)

/-- Every store is inside the file, and no resize makes it shorter. -/
def Within : Bytes → List Eff → Prop
  | _, [] => True
  | file, .store off bs :: es => off + bs.length ≤ file.length ∧ Within (splice file off bs) es
  | file, .setLen n :: es => file.length ≤ n ∧ Within (Eff.apply file (.setLen n)) es

theorem Within.append {es es' : List Eff} : ∀ {file : Bytes}, Within file es → Within (es.foldl Eff.apply file) es' → Within file (es ++ es') := by
  induction es with
  | nil => intro file _ h; exact h
  | cons e es ih =>
    intro file h h'
    cases e with
    | store off bs => exact ⟨h.1, ih h.2 h'⟩
    | setLen n => exact ⟨h.1, ih h.2 h'⟩

/-- The space is used for blocks of the file only, each once; there are `T` blocks in all, or more. -/
structure Space (os T : Nat) (d : Blocks) (len : Nat) : Prop where
  nodup : d.held.Nodup
  inside : ∀ p ∈ d.held, p * os < len
  total : T ≤ d.held.length + d.free

theorem length_le_of_nodup_lt : ∀ {n : Nat} {l : List Nat}, l.Nodup → (∀ x ∈ l, x < n) → l.length ≤ n := by
  intro n
  induction n with
  | zero =>
    intro l _ h
    cases l with
    | nil => simp
    | cons a l => exact absurd (h a List.mem_cons_self) (Nat.not_lt_zero _)
  | succ n ih =>
    intro l hn h
    have h1 := ih (l := l.erase n) (hn.erase n) fun x hx => by
      have h2 := h x (List.mem_of_mem_erase hx)
      have h3 : x ≠ n := by rintro rfl; exact (List.Nodup.not_mem_erase hn) hx
      omega
    have := List.length_erase_le (a := n) (l := l)
    have h4 : l.length ≤ (l.erase n).length + 1 := by
      rw [List.length_erase]
      split <;> omega
    omega

/-- A block inside the file that finds no space: there is less space than the file is long. -/
theorem Space.short {os T len p : Nat} {d : Blocks} (h : Space os T d len) (hp : p * os < len) (hn : p ∉ d.held) (hf : d.free = 0) : T * os < len := by
  have ho : T ≤ d.held.length := by have := h.total; omega
  have hlt : ∀ q : Nat, q * os < len → 0 < os → q < (len - 1) / os + 1 := by
    intro q hq hos
    have : q * os ≤ len - 1 := by omega
    have := (Nat.le_div_iff_mul_le hos).2 this
    omega
  rcases Nat.eq_zero_or_pos os with h0 | hos
  · subst h0; omega
  · have h1 := length_le_of_nodup_lt (n := (len - 1) / os + 1) (l := p :: d.held) (List.nodup_cons.2 ⟨hn, h.nodup⟩) (fun x hx => by
      rcases List.mem_cons.1 hx with rfl | hx
      · exact hlt _ hp hos
      · exact hlt x (h.inside x hx) hos)
    simp only [List.length_cons] at h1
    have h2 : T ≤ (len - 1) / os := by omega
    have h3 := Nat.mul_le_mul_right os h2
    have h4 := Nat.div_mul_le_self (len - 1) os
    omega

theorem Space.touchAll {os T len : Nat} {d d' : Blocks} {ps : List Nat} (h : Space os T d len) (hps : ∀ p ∈ ps, p * os < len) (ht : d.touchAll ps = some d') : Space os T d' len := by
  obtain ⟨_, _, b3, b4, b5, _⟩ := touchAll_some ht
  refine ⟨b5 h.nodup, fun p hp => ?_, by have := h.total; omega⟩
  rcases b3 p hp with hp | hp
  · exact h.inside p hp
  · exact hps p hp

/-- Effects inside the file: they are made, or the process dies with a file longer than the space there is for it. -/
theorem Space.onDisk {os T : Nat} {d : Blocks} {file f : Bytes} {effs : List Eff} {r : Option Blocks} (h : OnDisk os d file effs r f) :
    Within file effs → Space os T d file.length → (∀ d', r = some d' → Space os T d' f.length) ∧ (r = none → T * os < f.length) := by
  induction h with
  | done d file => intro _ hs; exact ⟨fun d' hd => by injection hd with hd; subst hd; exact hs, fun hd => by cases hd⟩
  | @store d d' file off bs effs r f ht rest ih =>
    intro hw hs
    have hl : (splice file off bs).length = file.length := splice_length _ _ _ hw.1
    exact ih hw.2 (by rw [hl]; exact hs.touchAll (fun p hp => Nat.lt_of_lt_of_le (blocksOf_lt hp) hw.1) ht)
  | @killed d d1 file off bs effs ps p bs' hps hd hp hfull hlen hmix =>
    intro hw hs
    refine ⟨fun d' hd => (by cases hd), fun _ => ?_⟩
    rw [splice_length _ _ _ (by rw [hlen]; exact hw.1)]
    obtain ⟨h1, h2⟩ := touch_none hfull
    exact (hs.touchAll (fun q hq => Nat.lt_of_lt_of_le (blocksOf_lt (hps q hq)) hw.1) hd).short (Nat.lt_of_lt_of_le (blocksOf_lt hp) hw.1) h1 h2
  | @setLen d file n effs r f rest ih =>
    intro hw hs
    have hle : file.length ≤ n := hw.1
    refine ih hw.2 ⟨hs.nodup, fun p hp => Nat.lt_of_lt_of_le (hs.inside p hp) ?_, hs.total⟩
    simp only [Eff.apply, List.length_append, List.length_take, zeros, List.length_replicate]
    omega

variable {c : Codec}

/-- As `Logged`; the effects are inside the file. -/
def LoggedIn (s s' : WState) : Prop :=
  s.mmLen ≤ s.file.length → s'.mmLen ≤ s'.file.length ∧ ∃ es, s'.log = s.log ++ es ∧ es.foldl Eff.apply s.file = s'.file ∧ Within s.file es

theorem LoggedIn.rfl' (s : WState) : LoggedIn s s := fun h => ⟨h, [], by simp, rfl, trivial⟩

theorem LoggedIn.trans {a b d : WState} (h : LoggedIn a b) (h' : LoggedIn b d) : LoggedIn a d := by
  intro hm
  obtain ⟨m1, e1, h1, h2, h3⟩ := h hm
  obtain ⟨m2, e2, h4, h5, h6⟩ := h' m1
  exact ⟨m2, e1 ++ e2, by rw [h4, h1, List.append_assoc], by rw [List.foldl_append, h2, h5], h3.append (by rw [h2]; exact h6)⟩

theorem loggedIn_andThen {s : WState} {r : Run WState} {f : WState → Run WState} (hr : LoggedIn s r.state)
    (hf : ∀ s1, LoggedIn s1 (f s1).state) : LoggedIn s (r.andThen f).state := by
  cases r with
  | panic s1 => exact hr
  | done s1 => exact hr.trans (hf s1)

theorem loggedIn_store (s : WState) (off : Nat) (bs : Bytes) : LoggedIn s (s.store off bs).state := by
  unfold WState.store
  split
  · rename_i h
    intro hm
    refine ⟨?_, [.store off bs], rfl, rfl, by omega, trivial⟩
    simp only [Run.state_done]
    rw [splice_length _ _ _ (by omega)]
    exact hm
  · exact .rfl' s

theorem loggedIn_storeLen (s : WState) (n : Nat) : LoggedIn s (s.storeLen n).state := by
  unfold WState.storeLen
  split
  · exact .rfl' s
  · exact loggedIn_store s _ _

theorem loggedIn_append (s : WState) (v : Bytes) : LoggedIn s (s.append v).state := by
  unfold WState.append
  split
  · exact .rfl' s
  · exact loggedIn_andThen (loggedIn_storeLen s _) fun s1 => loggedIn_store s1 _ _

theorem loggedIn_expand (s : WState) : LoggedIn s s.expand.state := by
  unfold WState.expand
  simp only []
  split
  · intro _
    refine ⟨by simp [zeros], [.setLen (s.file.length + s.page)], rfl, ?_, Nat.le_add_right _ _, trivial⟩
    simp only [List.foldl_cons, List.foldl_nil, Eff.apply, Run.state_done]
    rw [List.take_of_length_le (by omega), Nat.add_sub_cancel_left]
  · exact .rfl' s

theorem loggedIn_same (s s' : WState) (h1 : s'.log = s.log) (h2 : s'.file = s.file) (h3 : s'.mmLen = s.mmLen) : LoggedIn s s' :=
  fun h => ⟨by rw [h2, h3]; exact h, [], by simp [h1], h2.symm, trivial⟩

theorem loggedIn_trimLoop (maxLen : Nat) : ∀ (bs : List Buffer) (s : WState), LoggedIn s (WState.trimLoop c maxLen bs s).state
  | [], s => .rfl' s
  | b :: rest, s => by
    unfold WState.trimLoop
    split
    · exact .rfl' s
    split
    · exact .rfl' s
    refine loggedIn_andThen (loggedIn_andThen (loggedIn_andThen ?_ fun s1 => loggedIn_append s1 _) fun s1 => loggedIn_same _ _ rfl rfl rfl)
      fun s1 => loggedIn_trimLoop maxLen rest s1
    split
    · exact loggedIn_expand s
    · exact .rfl' s

theorem loggedIn_write (order : List Buffer → List Buffer) (b : Buffer) (dup : Bool) (s : WState) :
    LoggedIn s (s.write c order b dup).state := by
  unfold WState.write
  split
  · exact .rfl' s
  split
  · exact .rfl' s
  simp only []
  have h0 : LoggedIn s (if dup = true then { s with needTrim := true } else s) := by
    split
    · exact loggedIn_same _ _ rfl rfl rfl
    · exact .rfl' s
  generalize (if dup = true then { s with needTrim := true } else s) = s0 at h0 ⊢
  split
  · exact h0.trans (loggedIn_andThen (loggedIn_append s0 _) fun s1 => loggedIn_same _ _ rfl rfl rfl)
  split
  · split
    · exact h0
    · refine h0.trans (loggedIn_andThen (loggedIn_andThen (loggedIn_storeLen s0 0) fun s1 => ?_) fun s1 => loggedIn_same _ _ rfl rfl rfl)
      exact (loggedIn_same s1 { s1 with position := 0 } rfl rfl rfl).trans (loggedIn_trimLoop _ _ _)
  · exact h0.trans (loggedIn_andThen (loggedIn_andThen (loggedIn_expand s0) fun s1 => loggedIn_append s1 _) fun s1 => loggedIn_same _ _ rfl rfl rfl)

end Mmkv
