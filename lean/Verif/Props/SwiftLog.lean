import Verif.Model.SwiftLog
import Verif.Props.NativeLog
/-!
# C84, C85: loggers written in Swift
-/

namespace Mmkv.SLog
open Log (Ev)
open NLog (sets Own destroyed Clean)

/-! ### Specification -/

/-- The library's part of a history. -/
def libs (es : List SEv) : List Ev := es.filterMap fun | .lib e => some e | .main => none

/-- The logger that sees something. -/
def Seen.logger : Seen → Nat
  | .call _ l _ _ => l
  | .bye _ l => l

/-- The method for a message of a level. -/
def methodFor : LogLevel → Method
  | .error => .error
  | .warn => .warning
  | .info => .info
  | .debug => .debug
  | .verbose => .trace
  | .off => .trace

/-- The messages that loggers were called with, in order: which logger, by which method, with which text. -/
def delivered (seen : List Seen) : List (Nat × Method × String) :=
  seen.filterMap fun | .call _ l m t => some (l, m, t) | .bye _ _ => none

/-- The messages that the library handed to loggers, in order, each with the method for its level. -/
def handed (out : List NLog.Out) : List (Nat × Method × String) :=
  out.filterMap fun | .call l lv t => some (l, methodFor lv, t) | _ => none

/-! ### Proofs -/

theorem method_code (lv : LogLevel) : method lv.code = methodFor lv := by
  cases lv <;> rfl

/-- The messages in the main queue. -/
def waiting (bs : List (Nat × Int × String)) : List (Nat × Method × String) := bs.map fun (l, v, t) => (l, method v, t)

def holds (w : Sw) (l : Nat) : Nat := (w.blocks.map (·.1)).count l + if w.running = some l then 1 else 0

def lent (ss : List Nat) (out : List NLog.Out) (l : Nat) : Nat := if l ∈ ss ∧ l ∉ destroyed out then 1 else 0

structure SInv (ss : List Nat) (out : List NLog.Out) (w : Sw) : Prop where
  ok : w.fault = false
  count : ∀ l, w.refs l = lent ss out l + holds w l
  flow : delivered w.seen ++ waiting w.blocks = handed out
  bye : ∀ l, (∃ b, .bye b l ∈ w.seen) ↔ l ∈ ss ∧ w.refs l = 0
  known : ∀ x ∈ w.seen, x.logger ∈ ss
  heldKnown : ∀ l, 0 < holds w l → l ∈ ss
  last : ∀ a b l c, w.seen = a ++ .bye b l :: c → ∀ x ∈ c, x.logger ≠ l
  mainCalls : ∀ x ∈ w.seen, ∀ b l m t, x = .call b l m t → b = true

theorem snoc_split {seen a c : List Seen} {y x : Seen} (h : seen ++ [y] = a ++ x :: c) :
    (c = [] ∧ x = y ∧ a = seen) ∨ ∃ c', c = c' ++ [y] ∧ seen = a ++ x :: c' := by
  rcases List.eq_nil_or_concat c with rfl | ⟨c', z, rfl⟩
  · left
    obtain ⟨e1, e2⟩ := List.append_inj' h rfl
    injection e2 with e2
    exact ⟨rfl, e2.symm, e1.symm⟩
  · right
    rw [List.concat_eq_append, ← List.cons_append, ← List.append_assoc] at h
    obtain ⟨e1, e2⟩ := List.append_inj' h rfl
    injection e2 with e2
    subst e2
    exact ⟨c', by simp, e1⟩

/-- Dropping a reference: `w'` is `w` with one hold or the loan of `l` less, everything else being as the invariant wants it. -/
theorem release_inv {ss : List Nat} {out : List NLog.Out} {w : Sw} {b : Bool} {l : Nat}
    (ok : w.fault = false) (hss : l ∈ ss)
    (count : ∀ x, w.refs x = lent ss out x + holds w x + if x = l then 1 else 0)
    (flow : delivered w.seen ++ waiting w.blocks = handed out)
    (bye : ∀ x, (∃ b, .bye b x ∈ w.seen) ↔ x ∈ ss ∧ w.refs x = 0)
    (known : ∀ x ∈ w.seen, x.logger ∈ ss)
    (heldKnown : ∀ x, 0 < holds w x → x ∈ ss)
    (last : ∀ a b x c, w.seen = a ++ .bye b x :: c → ∀ y ∈ c, y.logger ≠ x)
    (mainCalls : ∀ x ∈ w.seen, ∀ b l m t, x = .call b l m t → b = true) : SInv ss out (w.release b l) := by
  have hpos : 0 < w.refs l := by rw [count l]; simp
  have h0 : ¬ w.refs l = 0 := by omega
  have hnb : ¬ ∃ b, .bye b l ∈ w.seen := fun h => h0 ((bye l).1 h).2
  unfold Sw.release
  rw [if_neg h0]
  refine ⟨ok, fun x => ?_, ?_, fun x => ?_, ?_, heldKnown, ?_, ?_⟩
  · show (if x = l then w.refs l - 1 else w.refs x) = lent ss out x + holds w x
    by_cases hx : x = l
    · subst hx
      rw [if_pos rfl, count x]; simp
    · rw [if_neg hx, count x]; simp [hx]
  · show delivered (if w.refs l = 1 then w.seen ++ [.bye b l] else w.seen) ++ waiting w.blocks = handed out
    split
    · rw [← flow]; simp [delivered]
    · exact flow
  · show (∃ b', .bye b' x ∈ (if w.refs l = 1 then w.seen ++ [.bye b l] else w.seen)) ↔
      x ∈ ss ∧ (if x = l then w.refs l - 1 else w.refs x) = 0
    by_cases hx : x = l
    · subst hx
      rw [if_pos rfl]
      split
      · exact ⟨fun _ => ⟨hss, by omega⟩, fun _ => ⟨b, by simp⟩⟩
      · constructor
        · intro h; exact absurd h hnb
        · intro h; omega
    · rw [if_neg hx, ← bye x]
      split
      · simp [hx]
      · rfl
  · intro x hx
    change x ∈ (if w.refs l = 1 then w.seen ++ [.bye b l] else w.seen) at hx
    split at hx
    · rcases List.mem_append.1 hx with hx | hx
      · exact known x hx
      · rw [List.mem_singleton] at hx; subst hx; exact hss
    · exact known x hx
  · intro a b' x c hs y hy
    change (if w.refs l = 1 then w.seen ++ [.bye b l] else w.seen) = _ at hs
    split at hs
    · rcases snoc_split hs with ⟨rfl, _, _⟩ | ⟨c', rfl, hs'⟩
      · cases hy
      · rcases List.mem_append.1 hy with hy | hy
        · exact last a b' x c' hs' y hy
        · rw [List.mem_singleton] at hy
          subst hy
          intro hc
          have hc : l = x := hc
          subst hc
          exact hnb ⟨b', by rw [hs']; simp⟩
    · exact last a b' x c hs y hy
  · intro x hx b' l' m t he
    change x ∈ (if w.refs l = 1 then w.seen ++ [.bye b l] else w.seen) at hx
    split at hx
    · rcases List.mem_append.1 hx with hx | hx
      · exact mainCalls x hx b' l' m t he
      · rw [List.mem_singleton] at hx; subst hx; cases he
    · exact mainCalls x hx b' l' m t he

theorem handed_snoc (out : List NLog.Out) (x : NLog.Out) : handed (out ++ [x]) = handed out ++ handed [x] := by
  simp [handed]

theorem destroyed_snoc (out : List NLog.Out) (x : NLog.Out) : destroyed (out ++ [x]) = destroyed out ++ destroyed [x] := by
  simp [destroyed]

theorem mem_destroyed {out : List NLog.Out} {l : Nat} (h : l ∈ destroyed out) : .destroy l ∈ out := by
  simp only [destroyed, List.mem_filterMap] at h
  obtain ⟨x, hx, he⟩ := h
  cases x <;> simp at he
  subst he; exact hx

theorem not_after {out : List NLog.Out} {x : NLog.Out} (h : Clean (out ++ [x])) {l : Nat} (hx : x.logger = some l) :
    l ∉ destroyed out := by
  intro hd
  obtain ⟨u, v, e⟩ := List.append_of_mem (mem_destroyed hd)
  exact h u l (v ++ [x]) (by rw [e]; simp) x (by simp) hx

/-- Something comes out of the log thread. -/
theorem out_inv {ss : List Nat} {out : List NLog.Out} {w : Sw} {x : NLog.Out} (h : SInv ss out w) (hc : Clean (out ++ [x]))
    (hu : ∀ l, x.logger = some l → l ∈ ss) : SInv ss (out ++ [x]) (w.out x) := by
  cases x with
  | print lv t =>
    refine ⟨h.ok, fun l => ?_, ?_, h.bye, h.known, h.heldKnown, h.last, h.mainCalls⟩
    · have := h.count l
      simpa [lent, destroyed_snoc, destroyed, Sw.out] using this
    · rw [handed_snoc]; simpa [handed, Sw.out] using h.flow
  | call l lv t =>
    have hl := hu l rfl
    have hnd := not_after hc (l := l) rfl
    have hpos : ¬ w.refs l = 0 := by rw [h.count l]; simp [lent, hl, hnd]
    simp only [Sw.out, if_neg hpos, Sw.retain]
    refine ⟨h.ok, fun x => ?_, ?_, fun x => ?_, h.known, fun x hx => ?_, h.last, h.mainCalls⟩
    · have hx := h.count x
      by_cases hxl : x = l
      · subst hxl
        simp only [if_true, lent, destroyed_snoc, holds, List.map_append, List.count_append] at hx ⊢
        simp [destroyed] at hx ⊢
        omega
      · have hlx : ¬ l = x := fun e => hxl e.symm
        simp only [if_neg hxl, lent, destroyed_snoc, holds, List.map_append, List.count_append] at hx ⊢
        simp [destroyed, hlx] at hx ⊢
        omega
    · rw [handed_snoc, ← h.flow]
      simp [waiting, handed, method_code]
    · rw [h.bye x]
      by_cases hxl : x = l
      · subst hxl; simp [hpos]
      · simp [hxl]
    · by_cases hxl : x = l
      · subst hxl; exact hl
      · refine h.heldKnown x ?_
        have hlx : ¬ l = x := fun e => hxl e.symm
        simpa [holds, hlx] using hx
  | destroy l =>
    have hl := hu l rfl
    have hnd := not_after hc (l := l) rfl
    refine release_inv h.ok hl (fun x => ?_) ?_ h.bye h.known h.heldKnown h.last h.mainCalls
    · rw [h.count x]
      simp only [lent, destroyed_snoc]
      by_cases hxl : x = l
      · subst hxl
        rw [if_pos ⟨hl, hnd⟩, if_neg (fun hc => hc.2 (by simp [destroyed])), if_pos rfl]
        omega
      · simp [hxl, destroyed]
    · rw [handed_snoc]; simpa [handed] using h.flow

theorem outs_inv {ss : List Nat} : ∀ (xs : List NLog.Out) {out : List NLog.Out} {w : Sw}, SInv ss out w → Clean (out ++ xs) →
    (∀ x ∈ xs, ∀ l, x.logger = some l → l ∈ ss) → SInv ss (out ++ xs) (xs.foldl Sw.out w) := by
  intro xs
  induction xs with
  | nil => intro out w h _ _; simpa using h
  | cons x xs ih =>
    intro out w h hc hu
    have e : out ++ x :: xs = (out ++ [x]) ++ xs := by simp
    rw [e] at hc ⊢
    refine ih (out_inv h ?_ (hu x List.mem_cons_self)) hc (fun y hy => hu y (List.mem_cons_of_mem _ hy))
    intro a l b hab y hy
    exact hc a l (b ++ xs) (by rw [hab]; simp) y (List.mem_append_left _ hy)

/-- A step of the main thread. -/
theorem main_inv {ss : List Nat} {out : List NLog.Out} {w w' : Sw} (h : SInv ss out w) (hm : w.main = some w') : SInv ss out w' := by
  unfold Sw.main at hm
  split at hm
  · rename_i l hr
    injection hm with hm
    subst hm
    have hl : l ∈ ss := h.heldKnown l (by simp [holds, hr])
    refine release_inv h.ok hl (fun x => ?_) h.flow h.bye h.known (fun x hx => h.heldKnown x ?_) h.last h.mainCalls
    · have := h.count x
      simp only [holds, hr] at this ⊢
      by_cases hxl : x = l
      · subst hxl; simp at this ⊢; omega
      · have hlx : ¬ l = x := fun e => hxl e.symm
        simp [hxl, hlx] at this ⊢; exact this
    · simp only [holds] at hx ⊢
      simp at hx
      have := List.count_pos_iff.2 (show x ∈ w.blocks.map (·.1) by simpa using hx)
      omega
  · rename_i hr
    split at hm
    · cases hm
    · rename_i l lv t rest hb
      have hpos : ¬ w.refs l = 0 := by rw [h.count l]; simp [holds, hb]
      have hl : l ∈ ss := h.heldKnown l (by simp [holds, hb]; omega)
      rw [if_neg hpos] at hm
      injection hm with hm
      subst hm
      refine ⟨h.ok, fun x => ?_, ?_, fun x => ?_, ?_, fun x hx => h.heldKnown x ?_, ?_, ?_⟩
      · have := h.count x
        simp only [holds, hr, hb] at this ⊢
        by_cases hxl : x = l
        · subst hxl; simp at this ⊢; omega
        · have hlx : ¬ l = x := fun e => hxl e.symm
          simp [hlx] at this ⊢; exact this
      · have := h.flow
        rw [hb] at this
        rw [← this]
        simp [delivered, waiting]
      · rw [← h.bye x]; simp
      · intro x hx
        rcases List.mem_append.1 hx with hx | hx
        · exact h.known x hx
        · rw [List.mem_singleton] at hx; subst hx; exact hl
      · simp only [holds, hr, hb] at hx ⊢
        by_cases hxl : x = l
        · subst hxl; simp
        · have hlx : ¬ l = x := fun e => hxl e.symm
          simp only [List.map_cons, List.count_cons, Option.some.injEq, hlx, if_false] at hx ⊢
          omega
      · intro a b x c hs y hy
        rcases snoc_split hs with ⟨rfl, _, _⟩ | ⟨c', rfl, hs'⟩
        · cases hy
        · rcases List.mem_append.1 hy with hy | hy
          · exact h.last a b x c' hs' y hy
          · rw [List.mem_singleton] at hy
            subst hy
            intro hc
            have hc : l = x := hc
            subst hc
            exact hpos ((h.bye l).1 ⟨b, by rw [hs']; simp⟩).2
      · intro x hx b' l' m' t' he
        rcases List.mem_append.1 hx with hx | hx
        · exact h.mainCalls x hx b' l' m' t' he
        · rw [List.mem_singleton] at hx
          subst hx
          injection he with he
          exact he.symm

/-- What came out stays. -/
theorem step_out {s s' : NLog.St} {e : Ev} {p : Bool} (h : NLog.step s e = some (s', p)) :
    ∃ xs, s'.lp.cb.out = s.lp.cb.out ++ xs := by
  have hpush : ∀ (lp : Looper.St Unit Log.Job NLog.Writer) (j : Log.Job), (Looper.push lp j).cb = lp.cb := by
    intro lp j; unfold Looper.push; split <;> rfl
  have hsend : ∀ (lp : Looper.St Unit Log.Job NLog.Writer), (Looper.send lp).1.cb = lp.cb := by
    intro lp; unfold Looper.send; split
    · split <;> rfl
    · rfl
  cases e with
  | setLevel l => simp only [NLog.step, Option.some.injEq, Prod.mk.injEq] at h; rw [← h.1]; exact ⟨[], by simp⟩
  | log level msg =>
    simp only [NLog.step] at h
    split at h <;> (simp only [Option.some.injEq, Prod.mk.injEq] at h; rw [← h.1]; exact ⟨[], by simp⟩)
  | queue k =>
    simp only [NLog.step] at h
    split at h
    · cases h
    · simp only [Option.some.injEq, Prod.mk.injEq] at h; rw [← h.1]; exact ⟨[], by simp [hpush]⟩
  | setLogger l => simp only [NLog.step, Option.some.injEq, Prod.mk.injEq] at h; rw [← h.1]; exact ⟨[], by simp [hpush]⟩
  | send =>
    simp only [NLog.step] at h
    split at h
    · simp only [Option.some.injEq, Prod.mk.injEq] at h; rw [← h.1]; exact ⟨[], by simp [hsend]⟩
    · cases h
  | io =>
    simp only [NLog.step] at h
    split at h
    · cases h
    rename_i lp hlp
    have key : ∃ xs, lp.cb.out = s.lp.cb.out ++ xs := by
      unfold Looper.ioStep at hlp
      split at hlp
      · split at hlp
        · injection hlp with hlp; subst hlp; exact ⟨[], by simp⟩
        · injection hlp with hlp; subst hlp; exact ⟨[], by simp⟩
        · split at hlp
          · cases hlp
          · injection hlp with hlp; subst hlp; exact ⟨[], by simp⟩
      · injection hlp with hlp; subst hlp; exact ⟨[], by simp⟩
      · split at hlp
        · injection hlp with hlp; subst hlp; exact ⟨[], by simp⟩
        · rename_i j rest hb
          cases j with
          | write level msg =>
            simp only [NLog.exec] at hlp
            split at hlp
            · rename_i cb hx
              injection hlp with hlp; subst hlp
              split at hx
              · split at hx
                · injection hx with hx; subst hx; exact ⟨_, rfl⟩
                · injection hx with hx; subst hx; exact ⟨[], by simp⟩
              · injection hx with hx; subst hx; exact ⟨_, rfl⟩
            · rename_i cb hx
              split at hx
              · split at hx <;> cases hx
              · cases hx
          | setLogger l0 =>
            simp only [NLog.exec] at hlp
            split at hlp
            · rename_i cb hx
              injection hlp with hlp; subst hlp
              split at hx
              · injection hx with hx; subst hx; exact ⟨[], by simp⟩
              · injection hx with hx; subst hx; exact ⟨_, rfl⟩
            · rename_i cb hx
              split at hx <;> cases hx
      · injection hlp with hlp; subst hlp; exact ⟨[], by simp⟩
      · cases hlp
      · cases hlp
    split at h
    · simp only [Option.some.injEq, Prod.mk.injEq] at h; rw [← h.1]; exact key
    · simp only [Option.some.injEq, Prod.mk.injEq] at h
      rw [← h.1]
      simp only [NLog.say]
      split
      · exact key
      · simp only [hsend, hpush]; exact key

structure Full (es : List SEv) (s : St) (exs : List Nat) : Prop where
  nl : NLog.Inv (libs es) s.nl exs
  sw : SInv (sets (libs es)) s.nl.lp.cb.out s.sw

theorem full_nil : Full [] {} [] := by
  refine ⟨NLog.inv_nil, ⟨rfl, ?_, rfl, ?_, ?_, ?_, ?_, ?_⟩⟩
  · intro l; simp [libs, sets, lent, holds]
  · intro l; simp [libs, sets]
  · intro x hx; cases hx
  · intro l hl; simp [holds] at hl
  · intro a b l c h; simp at h
  · intro x hx; cases hx

theorem libs_append (a b : List SEv) : libs (a ++ b) = libs a ++ libs b := by simp [libs]

/-- A new logger. -/
theorem set_inv {ss : List Nat} {out : List NLog.Out} {w : Sw} {e : Ev} (h : SInv ss out w)
    (hn : (ss ++ sets [e]).Nodup) (hd : ∀ l ∈ destroyed out, l ∈ ss) : SInv (ss ++ sets [e]) out (w.set e) := by
  have same : sets [e] = [] → w.set e = w → SInv (ss ++ sets [e]) out (w.set e) := by
    intro h1 h2; rw [h1, h2, List.append_nil]; exact h
  cases e with
  | setLogger l0 =>
    cases l0 with
    | none => exact same rfl rfl
    | some l =>
      have hs : sets [Ev.setLogger (some l)] = [l] := rfl
      rw [hs] at hn ⊢
      have hl : l ∉ ss := fun hc => (List.nodup_append.1 hn).2.2 l hc l (by simp) rfl
      have hh : holds w l = 0 := by
        rcases Nat.eq_zero_or_pos (holds w l) with h0 | h0
        · exact h0
        · exact absurd (h.heldKnown l h0) hl
      have hr : w.refs l = 0 := by rw [h.count l, hh]; simp [lent, hl]
      have hld : l ∉ destroyed out := fun hc => hl (hd l hc)
      refine ⟨h.ok, fun x => ?_, h.flow, fun x => ?_, fun x hx => List.mem_append_left _ (h.known x hx),
        fun x hx => List.mem_append_left _ (h.heldKnown x hx), h.last, h.mainCalls⟩
      · by_cases hx : x = l
        · subst hx
          show (if x = x then w.refs x + 1 else w.refs x) = lent (ss ++ [x]) out x + holds w x
          simp [lent, hld, hr, hh]
        · show (if x = l then w.refs l + 1 else w.refs x) = lent (ss ++ [l]) out x + holds w x
          rw [if_neg hx, h.count x]
          simp [lent, hx]
      · show (∃ b, .bye b x ∈ w.seen) ↔ x ∈ ss ++ [l] ∧ (if x = l then w.refs l + 1 else w.refs x) = 0
        rw [h.bye x]
        by_cases hx : x = l
        · subst hx; simp [hl]
        · simp [hx]
  | _ => exact same rfl rfl

theorem own_prefix {a b : List Ev} (h : Own (a ++ b)) : Own a := by
  refine ⟨fun hc => h.1 (List.mem_append_left _ hc), ?_⟩
  have := h.2
  rw [NLog.sets_append] at this
  exact (List.nodup_append.1 this).1

theorem full_step {es : List SEv} {s s' : St} {exs : List Nat} {e : SEv} (h : Full es s exs) (hown : Own (libs (es ++ [e])))
    (hs : step s e = some s') : ∃ exs', Full (es ++ [e]) s' exs' := by
  cases e with
  | main =>
    simp only [step] at hs
    split at hs
    · cases hs
    · rename_i w hw
      injection hs with hs
      subst hs
      have e1 : libs (es ++ [.main]) = libs es := by simp [libs]
      exact ⟨exs, by rw [e1]; exact h.nl, by rw [e1]; exact main_inv h.sw hw⟩
  | lib e =>
    have e1 : libs (es ++ [.lib e]) = libs es ++ [e] := by simp [libs]
    rw [e1] at hown
    simp only [step] at hs
    split at hs
    · cases hs
    · rename_i nl p hn
      injection hs with hs
      subst hs
      obtain ⟨_, exs', hinv⟩ := NLog.step_inv h.nl hown hn
      refine ⟨exs', by rw [e1]; exact hinv, ?_⟩
      obtain ⟨xs, hxs⟩ := step_out hn
      rw [e1]
      have hset : SInv (sets (libs es ++ [e])) s.nl.lp.cb.out (s.sw.set e) := by
        rw [NLog.sets_append]
        refine set_inv h.sw (by rw [← NLog.sets_append]; exact hown.2) ?_
        intro l hl
        rw [h.nl.gone] at hl
        rw [h.nl.split]
        exact List.mem_append_left _ (List.dropLast_subset _ hl)
      have := outs_inv xs hset (by rw [← hxs]; exact hinv.clean) (fun x hx l hl => by
        rw [hinv.split]
        exact List.mem_append_left _ (hinv.users x (by rw [hxs]; exact List.mem_append_right _ hx) l hl))
      simp only [hxs, List.drop_left]
      exact this

theorem full_run (es2 : List SEv) : ∀ {es1 : List SEv} {s s' : St} {exs : List Nat}, Full es1 s exs → Own (libs (es1 ++ es2)) →
    run s es2 = some s' → ∃ exs', Full (es1 ++ es2) s' exs' := by
  induction es2 with
  | nil =>
    intro es1 s s' exs h _ hr
    simp only [run, Option.some.injEq] at hr
    subst hr
    exact ⟨exs, by rwa [List.append_nil]⟩
  | cons e es2 ih =>
    intro es1 s s' exs h hown hr
    simp only [run] at hr
    split at hr
    · cases hr
    rename_i s1 hs
    have e1 : es1 ++ e :: es2 = (es1 ++ [e]) ++ es2 := by simp
    rw [e1] at hown ⊢
    obtain ⟨exs1, h1⟩ := full_step h (own_prefix (b := libs es2) (by rw [← libs_append]; exact hown)) hs
    exact ih h1 hown hr

/-! ### Theorems -/

theorem mem_sets {es : List Ev} {l : Nat} : l ∈ sets es ↔ .setLogger (some l) ∈ es := by
  simp only [sets, List.mem_filterMap]
  constructor
  · rintro ⟨e, he, hl⟩
    cases e <;> simp at hl
    subst hl; exact he
  · intro h
    exact ⟨_, h, rfl⟩

theorem libs_run : ∀ (es : List SEv) {s s' : St}, run s es = some s' → ∃ ps, NLog.run s.nl (libs es) = some (s'.nl, ps) := by
  intro es
  induction es with
  | nil => intro s s' h; simp only [run, Option.some.injEq] at h; subst h; exact ⟨[], rfl⟩
  | cons e es ih =>
    intro s s' h
    simp only [run] at h
    split at h
    · cases h
    rename_i s1 hs
    obtain ⟨ps, hr⟩ := ih h
    cases e with
    | main =>
      simp only [step] at hs
      split at hs
      · cases hs
      · injection hs with hs
        subst hs
        exact ⟨ps, hr⟩
    | lib e =>
      simp only [step] at hs
      split at hs
      · cases hs
      · rename_i nl p hn
        injection hs with hs
        subst hs
        refine ⟨p :: ps, ?_⟩
        show NLog.run s.nl (e :: libs es) = _
        simp only [NLog.run, hn, hr]

/-- **C84**, lifetime.  Whatever threads log, change the level and replace Swift loggers, and however the main thread gets to
its queue: no wrapper is used or released when nobody holds it any more; every logger that sees anything was set; nothing
happens to a logger after its wrapper is gone, so it goes at most once; and it goes only if another logger was set after it. -/
theorem C84_lifetime {es : List SEv} {s : St} (hown : Own (libs es)) (h : run {} es = some s) :
    s.sw.fault = false ∧
      (∀ x ∈ s.sw.seen, .lib (.setLogger (some x.logger)) ∈ es) ∧
      (∀ a b l c, s.sw.seen = a ++ .bye b l :: c → ∀ x ∈ c, x.logger ≠ l) ∧
      ∀ b l, .bye b l ∈ s.sw.seen →
        ∃ es1 es2 l', libs es = es1 ++ .setLogger (some l) :: es2 ∧ .setLogger (some l') ∈ es2 := by
  obtain ⟨exs, hf⟩ := full_run es full_nil (es1 := []) hown h
  rw [List.nil_append] at hf
  refine ⟨hf.sw.ok, fun x hx => ?_, hf.sw.last, fun b l hb => ?_⟩
  · have := mem_sets.1 (hf.sw.known x hx)
    simp only [libs, List.mem_filterMap] at this
    obtain ⟨y, hy, he⟩ := this
    cases y <;> simp at he
    subst he; exact hy
  · obtain ⟨hl, h0⟩ := (hf.sw.bye l).1 ⟨b, hb⟩
    rw [hf.sw.count l] at h0
    have hd : l ∈ destroyed s.nl.lp.cb.out := by
      by_cases hd : l ∈ destroyed s.nl.lp.cb.out
      · exact hd
      · simp [lent, hl, hd] at h0
    obtain ⟨ps, hr⟩ := libs_run es h
    exact (NLog.C66_destroy_last hown hr).2.2.2 l (mem_destroyed hd)

/-- **C84**, delivery: the messages that the loggers' methods have been called with are, in order and each with the method for
its level, the first of those the library handed over - all of them, when the main queue is empty. -/
theorem C84_delivery {es : List SEv} {s : St} (hown : Own (libs es)) (h : run {} es = some s) :
    delivered s.sw.seen <+: handed s.nl.lp.cb.out ∧
      (s.sw.blocks = [] → delivered s.sw.seen = handed s.nl.lp.cb.out) := by
  obtain ⟨exs, hf⟩ := full_run es full_nil (es1 := []) hown h
  refine ⟨⟨_, hf.sw.flow⟩, fun hb => ?_⟩
  have := hf.sw.flow
  rw [hb] at this
  simpa [waiting] using this

/-- **C84**, nothing lost in a replacement: a logger whose wrapper is gone has been called with every message handed to it. -/
theorem C84_complete {es : List SEv} {s : St} (hown : Own (libs es)) (h : run {} es = some s) {b : Bool} {l : Nat}
    (hb : .bye b l ∈ s.sw.seen) :
    (delivered s.sw.seen).filter (·.1 = l) = (handed s.nl.lp.cb.out).filter (·.1 = l) := by
  obtain ⟨exs, hf⟩ := full_run es full_nil (es1 := []) hown h
  have h0 := ((hf.sw.bye l).1 ⟨b, hb⟩).2
  rw [hf.sw.count l] at h0
  have hc : (s.sw.blocks.map (·.1)).count l = 0 := by simp only [holds] at h0; omega
  have hw : (waiting s.sw.blocks).filter (·.1 = l) = [] := by
    rw [List.filter_eq_nil_iff]
    intro x hx
    simp only [waiting, List.mem_map] at hx
    obtain ⟨⟨l', v, t⟩, hm, rfl⟩ := hx
    simp only [decide_eq_true_eq]
    rintro rfl
    exact List.count_eq_zero.1 hc (List.mem_map.2 ⟨_, hm, rfl⟩)
  rw [← hf.sw.flow, List.filter_append, hw, List.append_nil]

/-- **C84**, no leak: at rest - the log thread has nothing queued, the main thread neither - the wrappers that are gone are
exactly those of the loggers that have been replaced. -/
theorem C84_released {es : List SEv} {s : St} (hown : Own (libs es)) (h : run {} es = some s)
    (hq : s.nl.lp.queue = []) (hb : s.nl.lp.buf = []) (hm : s.sw.blocks = []) (hr : s.sw.running = none) (l : Nat) :
    (∃ b, .bye b l ∈ s.sw.seen) ↔ ∃ es1 es2 l', libs es = es1 ++ .setLogger (some l) :: es2 ∧ .setLogger (some l') ∈ es2 := by
  constructor
  · rintro ⟨b, hb⟩
    exact (C84_lifetime hown h).2.2.2 b l hb
  · rintro ⟨es1, es2, l', he, hl'⟩
    obtain ⟨exs, hf⟩ := full_run es full_nil (es1 := []) hown h
    rw [List.nil_append] at hf
    obtain ⟨ps, hrn⟩ := libs_run es h
    obtain ⟨u, v, rfl⟩ := List.append_of_mem hl'
    have e2 : libs es = es1 ++ .setLogger (some l) :: u ++ .setLogger (some l') :: v := by rw [he]; simp
    have hd := NLog.C66_replaced_destroyed (by rw [← e2]; exact hown) (by rw [← e2]; exact hrn) hq hb
    have hd' : l ∈ destroyed s.nl.lp.cb.out := by
      simp only [destroyed, List.mem_filterMap]
      exact ⟨_, hd, rfl⟩
    refine (hf.sw.bye l).2 ⟨mem_sets.2 (by rw [he]; simp), ?_⟩
    rw [hf.sw.count l]
    simp [lent, hd', holds, hm, hr]

/-- The main thread always gets through its queue: it can take a step unless there is nothing left, each message costs it
two, and its steps hand nothing to the library. -/
theorem C84_drains {es : List SEv} {s : St} (hown : Own (libs es)) (h : run {} es = some s) :
    ∃ s', run s (List.replicate (2 * s.sw.blocks.length + if s.sw.running = none then 0 else 1) .main) = some s' ∧
      s'.sw.blocks = [] ∧ s'.sw.running = none ∧ s'.nl = s.nl := by
  obtain ⟨exs, hf⟩ := full_run es full_nil (es1 := []) hown h
  obtain ⟨ss, out, hsw⟩ : ∃ ss out, SInv ss out s.sw := ⟨_, _, hf.sw⟩
  clear hf hown h
  have rel : ∀ (w : Sw) b l, (w.release b l).blocks = w.blocks ∧ (w.release b l).running = w.running := by
    intro w b l; unfold Sw.release; split <;> simp
  generalize hn : s.sw.blocks.length = n
  induction n generalizing s with
  | zero =>
    have hb : s.sw.blocks = [] := List.length_eq_zero_iff.1 hn
    cases hr : s.sw.running with
    | none => exact ⟨s, rfl, hb, hr, rfl⟩
    | some l =>
      refine ⟨{ s with sw := { s.sw with running := none }.release true l }, ?_, ?_, ?_, rfl⟩
      · simp [run, step, Sw.main, hr]
      · rw [(rel _ _ _).1]; exact hb
      · rw [(rel _ _ _).2]
  | succ n ih =>
    have first : ∀ (s : St), s.sw.running = none → s.sw.blocks.length = n + 1 → SInv ss out s.sw →
        ∃ s', run s (List.replicate (2 * (n + 1)) .main) = some s' ∧ s'.sw.blocks = [] ∧ s'.sw.running = none ∧ s'.nl = s.nl := by
      intro s hr hn hsw
      cases hb : s.sw.blocks with
      | nil => rw [hb] at hn; cases hn
      | cons x rest =>
        obtain ⟨l, lv, t⟩ := x
        have hpos : ¬ s.sw.refs l = 0 := by rw [hsw.count l]; simp [holds, hb]
        have h1 : s.sw.main = some { s.sw with blocks := rest, running := some l, seen := s.sw.seen ++ [.call true l (method lv) t] } := by
          simp only [Sw.main, hr, hb, if_neg hpos]
        have i1 := main_inv hsw h1
        obtain ⟨s', hs', g1, g2, g3⟩ := ih (s := { s with sw := { s.sw with blocks := rest, running := some l, seen := s.sw.seen ++ [.call true l (method lv) t] } })
          i1 (by rw [hb] at hn; simpa using hn)
        refine ⟨s', ?_, g1, g2, g3⟩
        have e : 2 * (n + 1) = (2 * n + 1) + 1 := by omega
        rw [e, List.replicate_succ]
        simp only [run, step, h1]
        simpa using hs'
    cases hr : s.sw.running with
    | none =>
      have := first s hr hn hsw
      simpa using this
    | some l =>
      have h1 : s.sw.main = some ({ s.sw with running := none }.release true l) := by simp only [Sw.main, hr]
      obtain ⟨s', hs', g1, g2, g3⟩ := first { s with sw := { s.sw with running := none }.release true l }
        (by rw [(rel _ _ _).2]) (by rw [(rel _ _ _).1]; exact hn) (main_inv hsw h1)
      refine ⟨s', ?_, g1, g2, g3⟩
      simp only [if_false, reduceCtorEq, List.replicate_succ, run, step, h1]
      exact hs'

/-- A history with two loggers: a message is still in the main queue when its logger is replaced. -/
def demo : List SEv :=
  ([.setLogger (some 1), .send, .io, .io, .io, .io, .log .warn "y", .queue 0, .send, .io, .io, .io, .io,
    .setLogger (some 2), .send, .io, .io, .io, .io, .io, .io, .io, .log .error "z", .queue 0, .send, .io, .io, .io, .io, .io] : List Ev).map .lib

/-- The hypotheses of the C84 theorems are met, and what the loggers see: the first one is given up on the main thread, after
its last message. -/
example : Own (libs (demo ++ List.replicate 6 .main)) ∧ (match run {} (demo ++ List.replicate 6 .main) with
    | some s => decide (s.sw.seen = [.call true 1 .warning "y", .bye true 1, .call true 2 .trace (NLog.releaseMsg 1),
        .call true 2 .error "z"] ∧ s.nl.lp.queue = [] ∧ s.nl.lp.buf = [] ∧ s.sw.blocks = [] ∧ s.sw.running = none)
    | none => false) = true := by
  refine ⟨⟨by decide, by decide⟩, by decide +kernel⟩

/-- **C85**, refuted: that a logger written in Swift is called on the main thread only.  Replaced when no message of its own is
waiting, it is called on the log thread: the wrapper's last reference is dropped there, and `deinit` calls `info`. -/
theorem C85_refuted : ¬ ∀ (es : List SEv) (s : St), Own (libs es) → run {} es = some s →
    ∀ x ∈ s.sw.seen, match x with | .call main _ _ _ => main = true | .bye main _ => main = true := by
  intro hall
  let es : List SEv := ([.setLogger (some 1), .send, .io, .io, .io, .io, .setLogger (some 2), .send, .io, .io, .io] : List Ev).map .lib
  have h : (match run {} es with
      | some s => decide (.bye false 1 ∈ s.sw.seen)
      | none => false) = true := by decide +kernel
  split at h
  · rename_i s hs
    have := hall es s ⟨by decide, by decide⟩ hs _ (of_decide_eq_true h)
    cases this
  · cases h

/-- **C85**, what holds: every message of the library reaches the logger on the main thread; the farewell of `deinit` is the
only call ever made elsewhere, and nothing follows it. -/
theorem C85_partial {es : List SEv} {s : St} (hown : Own (libs es)) (h : run {} es = some s) :
    (∀ b l m t, .call b l m t ∈ s.sw.seen → b = true) ∧
      ∀ a l c, s.sw.seen = a ++ .bye false l :: c → ∀ x ∈ c, x.logger ≠ l := by
  obtain ⟨exs, hf⟩ := full_run es full_nil (es1 := []) hown h
  exact ⟨fun b l m t hm => hf.sw.mainCalls _ hm b l m t rfl, fun a l c => hf.sw.last a false l c⟩

end Mmkv.SLog
