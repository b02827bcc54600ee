import Verif.Model.NativeLog
/-!
# C66: a native logger is destroyed once, after its last use
-/

namespace Mmkv.NLog
open Log (Job Ev)

/-! ### Specification -/

/-- The logger that something that came out has to do with. -/
def Out.logger : Out → Option Nat
  | .call l _ _ => some l
  | .destroy l => some l
  | .print _ _ => none

/-- The loggers given to `set_logger`, in order. -/
def sets (es : List Ev) : List Nat := es.filterMap fun | .setLogger l => l | _ => none

/-- Each `set_logger` brings a logger of its own; there is no call that takes the logger away. -/
def Own (es : List Ev) : Prop := .setLogger none ∉ es ∧ (sets es).Nodup

/-! ### Proofs -/

def jobSets (js : List Job) : List Nat := js.filterMap fun | .setLogger l => l | .write .. => none

def destroyed (out : List Out) : List Nat := out.filterMap fun | .destroy l => some l | _ => none

theorem sets_append (a b : List Ev) : sets (a ++ b) = sets a ++ sets b := by simp [sets]

theorem jobSets_append (a b : List Job) : jobSets (a ++ b) = jobSets a ++ jobSets b := by simp [jobSets]

/-- No use after `destroy`, and no second `destroy`. -/
def Clean (out : List Out) : Prop := ∀ a l b, out = a ++ .destroy l :: b → ∀ x ∈ b, x.logger ≠ some l

theorem clean_snoc {out : List Out} {x : Out} (h : Clean out) (hx : ∀ l ∈ destroyed out, x.logger ≠ some l) :
    Clean (out ++ [x]) := by
  intro a l b hab y hy
  rcases List.eq_nil_or_concat b with rfl | ⟨b', z, rfl⟩
  · cases hy
  · rw [List.concat_eq_append, ← List.cons_append, ← List.append_assoc] at hab
    obtain ⟨e1, e2⟩ := List.append_inj' hab rfl
    injection e2 with e2
    subst e2
    rw [List.concat_eq_append] at hy
    rcases List.mem_append.1 hy with hy | hy
    · exact h a l b' e1 y hy
    · simp only [List.mem_singleton] at hy
      subst hy
      refine hx l ?_
      rw [e1]
      simp [destroyed]

/-- `es`: what has happened; `exs`: the loggers whose `set_logger` the log thread has carried out. -/
structure Inv (es : List Ev) (s : St) (exs : List Nat) : Prop where
  sender : s.lp.sender = true
  chan : .quit ∉ s.lp.chan
  io : s.lp.io = .recv ∧ s.lp.buf = [] ∨ s.lp.io = .swap ∧ s.lp.buf = [] ∨ s.lp.io = .run
  split : sets es = exs ++ jobSets (s.lp.buf ++ s.lp.queue)
  some' : .setLogger none ∉ s.lp.buf ++ s.lp.queue
  inner : s.lp.cb.inner = exs.getLast?
  gone : destroyed s.lp.cb.out = exs.dropLast
  clean : Clean s.lp.cb.out
  users : ∀ x ∈ s.lp.cb.out, ∀ l, x.logger = some l → l ∈ exs
  none' : s.lp.cb.dropped = []

theorem inv_nil : Inv [] {} [] := by
  refine ⟨rfl, by simp [Looper.new], .inl ⟨rfl, rfl⟩, rfl, by simp [Looper.new], rfl, rfl, ?_, by simp [Looper.new], rfl⟩
  intro a l b h
  simp [Looper.new] at h

theorem push_inv {es : List Ev} {s : St} {exs : List Nat} (h : Inv es s exs) (e : Ev) (j : Job)
    (he : sets [e] = jobSets [j]) (hj : j ≠ .setLogger none) (lv : Int) (p : List (LogLevel × String)) :
    Inv (es ++ [e]) ⟨lv, p, Looper.push s.lp j⟩ exs := by
  have hp : Looper.push s.lp j = { s.lp with queue := s.lp.queue ++ [j], pushed := s.lp.pushed ++ [j], owed := s.lp.owed + 1 } := by
    unfold Looper.push; rw [if_pos h.sender]
  rw [hp]
  refine ⟨h.sender, h.chan, h.io, ?_, ?_, h.inner, h.gone, h.clean, h.users, h.none'⟩
  · rw [sets_append, he, h.split]
    simp only [jobSets_append, List.append_assoc]
  · simp only [← List.append_assoc, List.mem_append, List.mem_singleton]
    intro hc
    rcases hc with hc | hc
    · exact h.some' (List.mem_append.2 hc)
    · exact hj hc.symm

theorem send_inv {es : List Ev} {s : St} {exs : List Nat} (h : Inv es s exs) :
    ∃ lp, Looper.send s.lp = (lp, true) ∧ Inv es { s with lp := lp } exs := by
  unfold Looper.send
  rw [if_pos h.sender, if_neg (by rcases h.io with hi | hi | hi <;> simp [hi])]
  refine ⟨_, rfl, ⟨h.sender, ?_, h.io, h.split, h.some', h.inner, h.gone, h.clean, h.users, h.none'⟩⟩
  simpa using h.chan

theorem getLast?_snoc_dropLast {α : Type} (l : List α) (x : α) (h : l.getLast? = some x) : l = l.dropLast ++ [x] := by
  rcases List.eq_nil_or_concat l with rfl | ⟨l', y, rfl⟩
  · cases h
  · simp only [List.concat_eq_append, List.getLast?_append, List.getLast?_singleton, Option.some_or, Option.some.injEq] at h
    subst h
    simp

theorem step_inv {es : List Ev} {s s' : St} {exs : List Nat} {e : Ev} {p : Bool} (h : Inv es s exs) (hown : Own (es ++ [e]))
    (hs : step s e = some (s', p)) : p = false ∧ ∃ exs', Inv (es ++ [e]) s' exs' := by
  have same : ∀ {s'' : St}, sets [e] = [] → Inv es s'' exs → Inv (es ++ [e]) s'' exs := by
    intro s'' h1 h2
    exact ⟨h2.sender, h2.chan, h2.io, by rw [sets_append, h1, List.append_nil]; exact h2.split, h2.some', h2.inner, h2.gone,
      h2.clean, h2.users, h2.none'⟩
  cases e with
  | setLevel l =>
    simp only [step, Option.some.injEq, Prod.mk.injEq] at hs
    obtain ⟨rfl, rfl⟩ := hs
    exact ⟨rfl, exs, same rfl ⟨h.sender, h.chan, h.io, h.split, h.some', h.inner, h.gone, h.clean, h.users, h.none'⟩⟩
  | log level msg =>
    simp only [step] at hs
    split at hs
    · simp only [Option.some.injEq, Prod.mk.injEq] at hs
      obtain ⟨rfl, rfl⟩ := hs
      exact ⟨rfl, exs, same rfl h⟩
    · simp only [Option.some.injEq, Prod.mk.injEq] at hs
      obtain ⟨rfl, rfl⟩ := hs
      exact ⟨rfl, exs, same rfl ⟨h.sender, h.chan, h.io, h.split, h.some', h.inner, h.gone, h.clean, h.users, h.none'⟩⟩
  | queue k =>
    simp only [step] at hs
    split at hs
    · cases hs
    · simp only [Option.some.injEq, Prod.mk.injEq] at hs
      obtain ⟨rfl, rfl⟩ := hs
      exact ⟨rfl, exs, push_inv h _ _ rfl (by simp) _ _⟩
  | setLogger l =>
    simp only [step, Option.some.injEq, Prod.mk.injEq] at hs
    obtain ⟨rfl, rfl⟩ := hs
    refine ⟨rfl, exs, push_inv h _ _ rfl ?_ _ _⟩
    intro hc
    injection hc with hc
    subst hc
    exact hown.1 (by simp)
  | send =>
    simp only [step] at hs
    split at hs
    · obtain ⟨lp, hlp, hinv⟩ := send_inv h
      rw [hlp] at hs
      simp only [Bool.not_true, Option.some.injEq, Prod.mk.injEq] at hs
      obtain ⟨rfl, rfl⟩ := hs
      exact ⟨rfl, exs, same rfl hinv⟩
    · cases hs
  | io =>
    simp only [step] at hs
    split at hs
    · cases hs
    rename_i lp hlp
    have hnd : (exs ++ jobSets (s.lp.buf ++ s.lp.queue)).Nodup := by
      have := hown.2
      rw [sets_append, show sets [Ev.io] = [] from rfl, List.append_nil, h.split] at this
      exact this
    -- the state after the step of the thread
    have key : ∃ exs', Inv es ⟨s.level, s.pending, { lp with cb := { lp.cb with dropped := [] } }⟩ exs' := by
      unfold Looper.ioStep at hlp
      rcases h.io with ⟨hi, hb⟩ | ⟨hi, hb⟩ | hi
      · rw [hi] at hlp
        simp only at hlp
        split at hlp
        · rename_i rest hc
          injection hlp with hlp
          subst hlp
          exact ⟨exs, h.sender, fun hq => h.chan (by rw [hc]; exact List.mem_cons_of_mem _ hq), .inr (.inl ⟨rfl, hb⟩), h.split, h.some',
            h.inner, h.gone, h.clean, h.users, rfl⟩
        · rename_i rest hc
          exact absurd (by rw [hc]; exact List.mem_cons_self) h.chan
        · rw [if_pos h.sender] at hlp
          cases hlp
      · rw [hi] at hlp
        simp only [Option.some.injEq] at hlp
        subst hlp
        refine ⟨exs, h.sender, h.chan, .inr (.inr rfl), ?_, ?_, h.inner, h.gone, h.clean, h.users, rfl⟩
        · rw [h.split, hb]; simp
        · have := h.some'; rw [hb] at this; simpa [hb] using this
      · rw [hi] at hlp
        simp only at hlp
        split at hlp
        · rename_i hb
          injection hlp with hlp
          subst hlp
          exact ⟨exs, h.sender, h.chan, .inl ⟨rfl, hb⟩, h.split, h.some', h.inner, h.gone, h.clean, h.users, rfl⟩
        · rename_i j rest hb
          have hsp := h.split
          have hsm := h.some'
          rw [hb] at hsp hsm hnd
          cases j with
          | write level msg =>
            have hsp' : sets es = exs ++ jobSets (rest ++ s.lp.queue) := by rw [hsp]; simp [jobSets]
            have hsm' : .setLogger none ∉ rest ++ s.lp.queue := fun hc => hsm (List.mem_cons_of_mem _ hc)
            simp only [exec] at hlp
            split at hlp
            · rename_i cb hx
              injection hlp with hlp
              subst hlp
              split at hx
              · rename_i l hin
                split at hx
                · injection hx with hx
                  subst hx
                  have hlast : exs.getLast? = some l := by rw [← h.inner]; exact hin
                  refine ⟨exs, h.sender, h.chan, .inr (.inr rfl), hsp', hsm', h.inner, ?_, ?_, ?_, rfl⟩
                  · have := h.gone; simpa [destroyed] using this
                  · refine clean_snoc h.clean ?_
                    intro l' hl' he
                    rw [h.gone] at hl'
                    simp only [Out.logger, Option.some.injEq] at he
                    subst he
                    have e1 := getLast?_snoc_dropLast _ _ hlast
                    have n1 : exs.Nodup := (List.nodup_append.1 hnd).1
                    rw [e1] at n1
                    exact (List.nodup_append.1 n1).2.2 l hl' l (by simp) rfl
                  · intro x hx l' hl'
                    rcases List.mem_append.1 hx with hx | hx
                    · exact h.users x hx l' hl'
                    · simp only [List.mem_singleton] at hx
                      subst hx
                      simp only [Out.logger, Option.some.injEq] at hl'
                      subst hl'
                      exact List.mem_of_getLast? hlast
                · injection hx with hx
                  subst hx
                  exact ⟨exs, h.sender, h.chan, .inr (.inr rfl), hsp', hsm', h.inner, h.gone, h.clean, h.users, rfl⟩
              · injection hx with hx
                subst hx
                refine ⟨exs, h.sender, h.chan, .inr (.inr rfl), hsp', hsm', h.inner, ?_, ?_, ?_, rfl⟩
                · have := h.gone; simpa [destroyed] using this
                · exact clean_snoc h.clean (by intro l _; simp [Out.logger])
                · intro x hx l' hl'
                  rcases List.mem_append.1 hx with hx | hx
                  · exact h.users x hx l' hl'
                  · simp only [List.mem_singleton] at hx
                    subst hx
                    simp [Out.logger] at hl'
            · rename_i cb hx
              split at hx
              · split at hx <;> cases hx
              · cases hx
          | setLogger l0 =>
            cases l0 with
            | none => exact absurd List.mem_cons_self hsm
            | some l =>
              have hsp' : sets es = (exs ++ [l]) ++ jobSets (rest ++ s.lp.queue) := by rw [hsp]; simp [jobSets]
              have hsm' : .setLogger none ∉ rest ++ s.lp.queue := fun hc => hsm (List.mem_cons_of_mem _ hc)
              simp only [exec] at hlp
              split at hlp
              · rename_i cb hx
                injection hlp with hlp
                subst hlp
                split at hx
                · rename_i hin
                  injection hx with hx
                  subst hx
                  have hex : exs = [] := by
                    have := h.inner
                    rw [hin] at this
                    exact List.getLast?_eq_none_iff.1 this.symm
                  refine ⟨exs ++ [l], h.sender, h.chan, .inr (.inr rfl), hsp', hsm', by simp, ?_, h.clean, ?_, rfl⟩
                  · have := h.gone; rw [hex] at this ⊢; simpa using this
                  · intro x hx l' hl'
                    exact List.mem_append_left _ (h.users x hx l' hl')
                · rename_i old hin
                  injection hx with hx
                  subst hx
                  have hlast : exs.getLast? = some old := by rw [← h.inner]; exact hin
                  have e1 := getLast?_snoc_dropLast _ _ hlast
                  refine ⟨exs ++ [l], h.sender, h.chan, .inr (.inr rfl), hsp', hsm', by simp, ?_, ?_, ?_, rfl⟩
                  · have := h.gone
                    rw [List.dropLast_concat]
                    rw [show destroyed (s.lp.cb.out ++ [.destroy old]) = destroyed s.lp.cb.out ++ [old] by simp [destroyed], this]
                    exact e1.symm
                  · refine clean_snoc h.clean ?_
                    intro l' hl' he
                    rw [h.gone] at hl'
                    simp only [Out.logger, Option.some.injEq] at he
                    subst he
                    have n1 : exs.Nodup := (List.nodup_append.1 hnd).1
                    rw [e1] at n1
                    exact (List.nodup_append.1 n1).2.2 old hl' old (by simp) rfl
                  · intro x hx l' hl'
                    rcases List.mem_append.1 hx with hx | hx
                    · exact List.mem_append_left _ (h.users x hx l' hl')
                    · simp only [List.mem_singleton] at hx
                      subst hx
                      simp only [Out.logger, Option.some.injEq] at hl'
                      subst hl'
                      exact List.mem_append_left _ (List.mem_of_getLast? hlast)
              · rename_i cb hx
                split at hx <;> cases hx
    obtain ⟨exs', hinv⟩ := key
    split at hs
    · simp only [Option.some.injEq, Prod.mk.injEq] at hs
      obtain ⟨rfl, rfl⟩ := hs
      refine ⟨rfl, exs', ?_⟩
      exact ⟨hinv.sender, hinv.chan, hinv.io, by rw [sets_append, show sets [Ev.io] = [] from rfl, List.append_nil]; exact hinv.split,
        hinv.some', hinv.inner, hinv.gone, hinv.clean, hinv.users, hinv.none'⟩
    · rename_i l _ _
      simp only [say] at hs
      split at hs
      · simp only [Bool.not_true, Option.some.injEq, Prod.mk.injEq] at hs
        obtain ⟨rfl, rfl⟩ := hs
        refine ⟨rfl, exs', ?_⟩
        exact ⟨hinv.sender, hinv.chan, hinv.io, by rw [sets_append, show sets [Ev.io] = [] from rfl, List.append_nil]; exact hinv.split,
          hinv.some', hinv.inner, hinv.gone, hinv.clean, hinv.users, hinv.none'⟩
      · have h1 := push_inv hinv .io (.write .verbose (releaseMsg l)) rfl (by simp) s.level s.pending
        obtain ⟨lp2, e2, h2⟩ := send_inv h1
        simp only at e2
        rw [e2] at hs
        simp only [Bool.not_true, Option.some.injEq, Prod.mk.injEq] at hs
        obtain ⟨rfl, rfl⟩ := hs
        exact ⟨rfl, exs', h2⟩

theorem run_inv (es2 : List Ev) : ∀ {es1 : List Ev} {s s' : St} {exs : List Nat} {ps : List Bool}, Inv es1 s exs →
    Own (es1 ++ es2) → run s es2 = some (s', ps) → (∀ p ∈ ps, p = false) ∧ ∃ exs', Inv (es1 ++ es2) s' exs' := by
  induction es2 with
  | nil =>
    intro es1 s s' exs ps h _ hr
    simp only [run, Option.some.injEq, Prod.mk.injEq] at hr
    obtain ⟨rfl, rfl⟩ := hr
    exact ⟨by simp, exs, by rwa [List.append_nil]⟩
  | cons e es2 ih =>
    intro es1 s s' exs ps h hown hr
    simp only [run] at hr
    split at hr
    · cases hr
    rename_i s1 p hs
    split at hr
    · cases hr
    rename_i s2 ps2 hr2
    simp only [Option.some.injEq, Prod.mk.injEq] at hr
    obtain ⟨rfl, rfl⟩ := hr
    have e1 : es1 ++ e :: es2 = (es1 ++ [e]) ++ es2 := by simp
    rw [e1] at hown ⊢
    have hown1 : Own (es1 ++ [e]) := by
      refine ⟨fun hc => hown.1 (List.mem_append_left _ hc), ?_⟩
      have := hown.2
      rw [sets_append] at this
      exact (List.nodup_append.1 this).1
    obtain ⟨hp, exs1, h1⟩ := step_inv h hown1 hs
    obtain ⟨hps, exs2, h2⟩ := ih h1 hown hr2
    refine ⟨?_, exs2, h2⟩
    intro q hq
    rcases List.mem_cons.1 hq with rfl | hq
    · exact hp
    · exact hps q hq

/-- **C66**, safety.  Whatever threads log, change the level and replace native loggers, in any order and interleaving: no call
panics; a logger's callback runs only after it has been set; once its `destroy` has been called nothing more is done with it
(no callback, no second `destroy`); and it is destroyed only if another logger has been set after it. -/
theorem C66_destroy_last {es : List Ev} {s : St} {ps : List Bool} (hown : Own es) (h : run {} es = some (s, ps)) :
    (∀ p ∈ ps, p = false) ∧
      (∀ x ∈ s.lp.cb.out, ∀ l, x.logger = some l → .setLogger (some l) ∈ es) ∧
      (∀ a l b, s.lp.cb.out = a ++ .destroy l :: b → ∀ x ∈ b, x.logger ≠ some l) ∧
      ∀ l, .destroy l ∈ s.lp.cb.out → ∃ es1 es2 l', es = es1 ++ .setLogger (some l) :: es2 ∧ .setLogger (some l') ∈ es2 := by
  obtain ⟨hps, exs, hinv⟩ := run_inv es inv_nil (es1 := []) hown h
  simp only [List.nil_append] at hinv
  have hset : ∀ l, l ∈ sets es → .setLogger (some l) ∈ es := by
    intro l hl
    simp only [sets, List.mem_filterMap] at hl
    obtain ⟨e, he, hl⟩ := hl
    cases e <;> simp_all
  have hpre : ∀ l ∈ exs, l ∈ sets es := fun l hl => by rw [hinv.split]; exact List.mem_append_left _ hl
  refine ⟨hps, fun x hx l hl => hset l (hpre l (hinv.users x hx l hl)), hinv.clean, ?_⟩
  intro l hl
  have hd : l ∈ exs.dropLast := by
    rw [← hinv.gone]
    simp only [destroyed, List.mem_filterMap]
    exact ⟨_, hl, rfl⟩
  obtain ⟨es1, es2, rfl⟩ := List.append_of_mem (hset l (hpre l (List.dropLast_subset _ hd)))
  refine ⟨es1, es2, ?_⟩
  -- `l` is not the last of the loggers set
  have hs := hinv.split
  have hne : exs ≠ [] := by rintro rfl; simp at hd
  obtain ⟨last, hlast⟩ : ∃ x, exs.getLast? = some x := by
    cases hg : exs.getLast? with
    | none => exact absurd (List.getLast?_eq_none_iff.1 hg) hne
    | some x => exact ⟨x, rfl⟩
  have e1 := getLast?_snoc_dropLast _ _ hlast
  obtain ⟨u, v, huv⟩ := List.append_of_mem hd
  rw [e1, huv] at hs
  have hs' : sets es1 ++ l :: sets es2 = u ++ l :: (v ++ [last] ++ jobSets (s.lp.buf ++ s.lp.queue)) := by
    rw [sets_append] at hs
    simpa [sets] using hs
  have hn : (sets es1 ++ l :: sets es2).Nodup := by
    have := hown.2
    rw [sets_append] at this
    simpa [sets] using this
  have hlen : sets es1 = u := by
    have n1 := List.nodup_append.1 hn
    have hn2 := hn
    rw [hs'] at hn2
    have n2 := List.nodup_append.1 hn2
    have a1 : l ∉ sets es1 := fun hc => n1.2.2 l hc l (by simp) rfl
    have a2 : l ∉ u := fun hc => n2.2.2 l hc l (by simp) rfl
    have t1 : (sets es1 ++ l :: sets es2).takeWhile (· != l) = sets es1 := by
      rw [List.takeWhile_append_of_pos]
      · simp
      · intro x hx; simp; rintro rfl; exact a1 hx
    have t2 : (u ++ l :: (v ++ [last] ++ jobSets (s.lp.buf ++ s.lp.queue))).takeWhile (· != l) = u := by
      rw [List.takeWhile_append_of_pos]
      · simp
      · intro x hx; simp; rintro rfl; exact a2 hx
    rw [← t1, hs', t2]
  rw [hlen] at hs'
  have h2 := List.append_cancel_left hs'
  injection h2 with _ h2
  have hl2 : last ∈ sets es2 := by rw [h2]; simp
  refine ⟨last, rfl, ?_⟩
  simp only [sets, List.mem_filterMap] at hl2
  obtain ⟨e, he, hl2⟩ := hl2
  cases e with
  | setLogger x => simp only at hl2; subst hl2; exact he
  | _ => simp at hl2

/-- **C66**, completeness: once the log thread has nothing left to do, every logger that has been replaced has been
destroyed. -/
theorem C66_replaced_destroyed {es1 es2 es3 : List Ev} {l l' : Nat} {s : St} {ps : List Bool}
    (hown : Own (es1 ++ .setLogger (some l) :: es2 ++ .setLogger (some l') :: es3))
    (h : run {} (es1 ++ .setLogger (some l) :: es2 ++ .setLogger (some l') :: es3) = some (s, ps))
    (hq : s.lp.queue = []) (hb : s.lp.buf = []) : .destroy l ∈ s.lp.cb.out := by
  generalize hes : es1 ++ .setLogger (some l) :: es2 ++ .setLogger (some l') :: es3 = es at *
  obtain ⟨_, exs, hinv⟩ := run_inv es inv_nil (es1 := []) hown h
  rw [List.nil_append] at hinv
  have hs := hinv.split
  rw [hq, hb, ← hes] at hs
  simp only [List.append_nil, jobSets, List.filterMap_nil] at hs
  have hm : l ∈ exs.dropLast := by
    rw [← hs, sets_append]
    have : sets (Ev.setLogger (some l') :: es3) ≠ [] := by simp [sets]
    rw [List.dropLast_append_of_ne_nil this, sets_append]
    simp [sets]
  rw [← hinv.gone] at hm
  simp only [destroyed, List.mem_filterMap] at hm
  obtain ⟨x, hx, he⟩ := hm
  cases x <;> simp_all

/-! ### The log thread gets there -/

/-- Nothing is queued without a signal on its way. -/
def Wake (s : St) : Prop := s.lp.queue ≠ [] → 0 < s.lp.owed ∨ .next ∈ s.lp.chan ∨ s.lp.io = .swap

theorem wake_step {s s' : St} {e : Ev} {p : Bool} {es : List Ev} {exs : List Nat} (hi : Inv es s exs) (h : Wake s)
    (hs : step s e = some (s', p)) : Wake s' := by
  have hpush : ∀ (lp : Looper.St Unit Job Writer) (j : Job), lp.sender = true →
      Looper.push lp j = { lp with queue := lp.queue ++ [j], pushed := lp.pushed ++ [j], owed := lp.owed + 1 } := by
    intro lp j hl; unfold Looper.push; rw [if_pos hl]
  cases e with
  | setLevel l =>
    simp only [step, Option.some.injEq, Prod.mk.injEq] at hs
    obtain ⟨rfl, rfl⟩ := hs
    exact h
  | log level msg =>
    simp only [step] at hs
    split at hs <;> (simp only [Option.some.injEq, Prod.mk.injEq] at hs; obtain ⟨rfl, rfl⟩ := hs; exact h)
  | queue k =>
    simp only [step] at hs
    split at hs
    · cases hs
    · simp only [Option.some.injEq, Prod.mk.injEq] at hs
      obtain ⟨rfl, rfl⟩ := hs
      intro _
      left
      rw [hpush _ _ hi.sender]
      exact Nat.succ_pos _
  | setLogger l =>
    simp only [step, Option.some.injEq, Prod.mk.injEq] at hs
    obtain ⟨rfl, rfl⟩ := hs
    intro _
    left
    rw [hpush _ _ hi.sender]
    exact Nat.succ_pos _
  | send =>
    simp only [step] at hs
    split at hs
    · rename_i ho
      simp only [Looper.send] at hs
      rw [if_pos hi.sender, if_neg (by rcases hi.io with hi | hi | hi <;> simp [hi])] at hs
      simp only [Bool.not_true, Option.some.injEq, Prod.mk.injEq] at hs
      obtain ⟨rfl, rfl⟩ := hs
      intro _
      right; left
      simp
    · cases hs
  | io =>
    simp only [step] at hs
    split at hs
    · cases hs
    rename_i lp hlp
    -- without the message of `Drop`
    have key : (lp.queue ≠ [] → 0 < lp.owed ∨ .next ∈ lp.chan ∨ lp.io = .swap) ∧ lp.sender = true ∧ ¬ (lp.io = .dead ∨ lp.io = .exited) := by
      unfold Looper.ioStep at hlp
      rcases hi.io with ⟨hio, hb⟩ | ⟨hio, hb⟩ | hio
      · rw [hio] at hlp
        simp only at hlp
        split at hlp
        · injection hlp with hlp
          subst hlp
          exact ⟨fun _ => .inr (.inr rfl), hi.sender, by simp⟩
        · rename_i rest hc
          exact absurd (by rw [hc]; exact List.mem_cons_self) hi.chan
        · rw [if_pos hi.sender] at hlp
          cases hlp
      · rw [hio] at hlp
        simp only [Option.some.injEq] at hlp
        subst hlp
        exact ⟨fun hq => absurd hb hq, hi.sender, by simp⟩
      · rw [hio] at hlp
        simp only at hlp
        have hw : s.lp.queue ≠ [] → 0 < s.lp.owed ∨ .next ∈ s.lp.chan := by
          intro hq
          rcases h hq with h1 | h1 | h1
          · exact .inl h1
          · exact .inr h1
          · rw [hio] at h1; cases h1
        split at hlp
        · injection hlp with hlp
          subst hlp
          exact ⟨fun hq => (hw hq).elim .inl (fun x => .inr (.inl x)), hi.sender, by simp⟩
        · rename_i j rest hb
          split at hlp
          · injection hlp with hlp
            subst hlp
            exact ⟨fun hq => (hw hq).elim .inl (fun x => .inr (.inl x)), hi.sender, by simp⟩
          · rename_i cb hx
            cases j <;> simp only [exec] at hx <;> (repeat' split at hx) <;> cases hx
    split at hs
    · simp only [Option.some.injEq, Prod.mk.injEq] at hs
      obtain ⟨rfl, rfl⟩ := hs
      exact key.1
    · rename_i l _ _
      simp only [say] at hs
      split at hs
      · simp only [Bool.not_true, Option.some.injEq, Prod.mk.injEq] at hs
        obtain ⟨rfl, rfl⟩ := hs
        exact key.1
      · rw [hpush _ _ (by exact key.2.1)] at hs
        simp only [Looper.send] at hs
        rw [if_pos key.2.1, if_neg key.2.2] at hs
        simp only [Bool.not_true, Option.some.injEq, Prod.mk.injEq] at hs
        obtain ⟨rfl, rfl⟩ := hs
        intro _
        right; left
        simp

def jobCost : Job → Nat
  | .write .. => 6
  | .setLogger _ => 12

def pcCost : Looper.IoPc → Nat
  | .swap => 2
  | .run => 1
  | _ => 0

/-- A bound on what is left to do for the log thread and the calls under way. -/
def cost (s : St) : Nat :=
  ((s.lp.buf ++ s.lp.queue).map jobCost).sum + 4 * s.lp.owed + 3 * s.lp.chan.length + pcCost s.lp.io

theorem cost_step {s s' : St} {e : Ev} {p : Bool} {es : List Ev} {exs : List Nat} (hi : Inv es s exs)
    (he : e = .send ∨ e = .io) (hs : step s e = some (s', p)) : cost s' < cost s := by
  rcases he with rfl | rfl
  · simp only [step] at hs
    split at hs
    · rename_i ho
      simp only [Looper.send] at hs
      rw [if_pos hi.sender, if_neg (by rcases hi.io with hi | hi | hi <;> simp [hi])] at hs
      simp only [Bool.not_true, Option.some.injEq, Prod.mk.injEq] at hs
      obtain ⟨rfl, rfl⟩ := hs
      simp only [cost, List.length_append, List.length_singleton]
      omega
    · cases hs
  · simp only [step] at hs
    split at hs
    · cases hs
    rename_i lp hlp
    have hn := hi.none'
    have key : lp.sender = true ∧ ¬ (lp.io = .dead ∨ lp.io = .exited) ∧
        ((lp.buf ++ lp.queue).map jobCost).sum + 4 * lp.owed + 3 * lp.chan.length + pcCost lp.io +
          (if lp.cb.dropped = [] then 0 else 9) < cost s := by
      unfold Looper.ioStep at hlp
      rcases hi.io with ⟨hio, hb⟩ | ⟨hio, hb⟩ | hio
      · rw [hio] at hlp
        simp only at hlp
        split at hlp
        · rename_i rest hc
          injection hlp with hlp
          subst hlp
          refine ⟨hi.sender, by simp, ?_⟩
          simp only [cost, hc, hio, hn, pcCost, if_true, List.length_cons]
          omega
        · rename_i rest hc
          exact absurd (by rw [hc]; exact List.mem_cons_self) hi.chan
        · rw [if_pos hi.sender] at hlp
          cases hlp
      · rw [hio] at hlp
        simp only [Option.some.injEq] at hlp
        subst hlp
        refine ⟨hi.sender, by simp, ?_⟩
        simp only [cost, hio, hn, hb, pcCost, if_true, List.append_nil, List.nil_append]
        omega
      · rw [hio] at hlp
        simp only at hlp
        split at hlp
        · rename_i hb
          injection hlp with hlp
          subst hlp
          refine ⟨hi.sender, by simp, ?_⟩
          simp only [cost, hio, hn, hb, pcCost, if_true]
          omega
        · rename_i j rest hb
          split at hlp
          · rename_i cb hx
            injection hlp with hlp
            subst hlp
            refine ⟨hi.sender, by simp, ?_⟩
            simp only [cost, hio, hb, pcCost, List.cons_append, List.map_cons, List.sum_cons]
            have : (if cb.dropped = [] then 0 else 9) < jobCost j := by
              cases j with
              | write level msg =>
                have : cb.dropped = [] := by
                  rw [← hn]
                  simp only [exec] at hx
                  (repeat' split at hx) <;> (injection hx with hx; subst hx; rfl)
                simp [this, jobCost]
              | setLogger l => simp only [jobCost]; split <;> omega
            omega
          · rename_i cb hx
            cases j <;> simp only [exec] at hx <;> (repeat' split at hx) <;> cases hx
    obtain ⟨k1, k2, k3⟩ := key
    split at hs
    · rename_i hd
      simp only [Option.some.injEq, Prod.mk.injEq] at hs
      obtain ⟨rfl, rfl⟩ := hs
      rw [if_pos hd] at k3
      exact k3
    · rename_i l rest hd
      rw [if_neg (by rw [hd]; simp)] at k3
      simp only [say] at hs
      split at hs
      · simp only [Bool.not_true, Option.some.injEq, Prod.mk.injEq] at hs
        obtain ⟨rfl, rfl⟩ := hs
        refine Nat.lt_of_le_of_lt ?_ k3
        simp only [cost]
        omega
      · have hp : ∀ (lp : Looper.St Unit Job Writer) (j : Job), lp.sender = true →
            Looper.push lp j = { lp with queue := lp.queue ++ [j], pushed := lp.pushed ++ [j], owed := lp.owed + 1 } := by
          intro lp j hl; unfold Looper.push; rw [if_pos hl]
        rw [hp _ _ (by exact k1)] at hs
        simp only [Looper.send] at hs
        rw [if_pos k1, if_neg k2] at hs
        simp only [Bool.not_true, Option.some.injEq, Prod.mk.injEq] at hs
        obtain ⟨rfl, rfl⟩ := hs
        refine Nat.lt_of_le_of_lt ?_ k3
        simp only [cost, ← List.append_assoc, List.map_append, List.sum_append, List.map_cons, List.map_nil, List.sum_cons,
          List.sum_nil, jobCost, List.length_append, List.length_singleton]
        omega

theorem run_cost (es2 : List Ev) : ∀ {es1 : List Ev} {s s' : St} {exs : List Nat} {ps : List Bool}, Inv es1 s exs →
    Own (es1 ++ es2) → (∀ e ∈ es2, e = .send ∨ e = .io) → run s es2 = some (s', ps) → es2.length + cost s' ≤ cost s := by
  induction es2 with
  | nil =>
    intro es1 s s' exs ps h _ _ hr
    simp only [run, Option.some.injEq, Prod.mk.injEq] at hr
    obtain ⟨rfl, rfl⟩ := hr
    simp
  | cons e es2 ih =>
    intro es1 s s' exs ps h hown he hr
    simp only [run] at hr
    split at hr
    · cases hr
    rename_i s1 p hs
    split at hr
    · cases hr
    rename_i s2 ps2 hr2
    simp only [Option.some.injEq, Prod.mk.injEq] at hr
    obtain ⟨rfl, rfl⟩ := hr
    have e1 : es1 ++ e :: es2 = (es1 ++ [e]) ++ es2 := by simp
    rw [e1] at hown
    have hown1 : Own (es1 ++ [e]) := by
      refine ⟨fun hc => hown.1 (List.mem_append_left _ hc), ?_⟩
      have := hown.2
      rw [sets_append] at this
      exact (List.nodup_append.1 this).1
    obtain ⟨_, exs1, h1⟩ := step_inv h hown1 hs
    have := ih h1 hown (fun e he' => he e (List.mem_cons_of_mem _ he')) hr2
    have := cost_step h (he e List.mem_cons_self) hs
    simp only [List.length_cons]
    omega

theorem run_wake (es2 : List Ev) : ∀ {es1 : List Ev} {s s' : St} {exs : List Nat} {ps : List Bool}, Inv es1 s exs → Wake s →
    Own (es1 ++ es2) → run s es2 = some (s', ps) → Wake s' := by
  induction es2 with
  | nil =>
    intro es1 s s' exs ps h hw _ hr
    simp only [run, Option.some.injEq, Prod.mk.injEq] at hr
    obtain ⟨rfl, rfl⟩ := hr
    exact hw
  | cons e es2 ih =>
    intro es1 s s' exs ps h hw hown hr
    simp only [run] at hr
    split at hr
    · cases hr
    rename_i s1 p hs
    split at hr
    · cases hr
    rename_i s2 ps2 hr2
    simp only [Option.some.injEq, Prod.mk.injEq] at hr
    obtain ⟨rfl, rfl⟩ := hr
    have e1 : es1 ++ e :: es2 = (es1 ++ [e]) ++ es2 := by simp
    rw [e1] at hown
    have hown1 : Own (es1 ++ [e]) := by
      refine ⟨fun hc => hown.1 (List.mem_append_left _ hc), ?_⟩
      have := hown.2
      rw [sets_append] at this
      exact (List.nodup_append.1 this).1
    obtain ⟨_, exs1, h1⟩ := step_inv h hown1 hs
    exact ih h1 (wake_step h hw hs) hown hr2

/-- **C66**, liveness: after any history, the calls under way and the log thread come to rest by themselves - however they are
scheduled, they can take only a bounded number of further steps (the messages that `Drop` sends to its own thread included), and
when no step is left the log thread has nothing queued, so that `C66_replaced_destroyed` applies. -/
theorem C66_comes_to_rest {es : List Ev} {s : St} {ps : List Bool} (hown : Own es) (h : run {} es = some (s, ps)) :
    (∃ n, ∀ es' s' ps', (∀ e ∈ es', e = .send ∨ e = .io) → run s es' = some (s', ps') → es'.length ≤ n) ∧
      (step s .send = none → step s .io = none → s.lp.queue = [] ∧ s.lp.buf = []) := by
  obtain ⟨_, exs, hinv⟩ := run_inv es inv_nil (es1 := []) hown h
  rw [List.nil_append] at hinv
  have hw : Wake s := run_wake es inv_nil (es1 := []) (by intro hq; exact absurd rfl hq) hown h
  refine ⟨⟨cost s, fun es' s' ps' he hr => ?_⟩, fun h1 h2 => ?_⟩
  · have : Own (es ++ es') := by
      have hno : sets es' = [] := by
        simp only [sets, List.filterMap_eq_nil_iff]
        intro e hm
        rcases he e hm with rfl | rfl <;> rfl
      refine ⟨fun hc => ?_, by rw [sets_append, hno, List.append_nil]; exact hown.2⟩
      rcases List.mem_append.1 hc with hc | hc
      · exact hown.1 hc
      · rcases he _ hc with hc | hc <;> cases hc
    have := run_cost es' hinv this he hr
    omega
  · have ho : ¬ 0 < s.lp.owed := by
      intro ho
      simp [step, ho] at h1
    have hio : Looper.ioStep exec () s.lp = none := by
      simp only [step] at h2
      split at h2
      · assumption
      · split at h2 <;> simp at h2
    unfold Looper.ioStep at hio
    rcases hinv.io with ⟨hi, hb⟩ | ⟨hi, hb⟩ | hi
    · rw [hi] at hio
      simp only at hio
      refine ⟨?_, hb⟩
      split at hio
      · cases hio
      · cases hio
      · rename_i hc
        cases hq : s.lp.queue with
        | nil => rfl
        | cons j js =>
          rcases hw (by rw [hq]; simp) with h3 | h3 | h3
          · exact absurd h3 ho
          · rw [hc] at h3; cases h3
          · rw [hi] at h3; cases h3
    · rw [hi] at hio
      cases hio
    · rw [hi] at hio
      simp only at hio
      split at hio
      · cases hio
      · split at hio <;> cases hio

/-- The hypotheses of the C66 theorems are met: two loggers set one after the other, with a message before, between and after;
what comes out at rest (the message of `Drop` goes to the second logger). -/
example :
    let es : List Ev := [.log .info "x", .queue 0, .send, .setLogger (some 1), .send, .io, .io, .io, .io, .io, .log .warn "y", .queue 0, .send,
      .io, .io, .io, .io, .io, .io, .io, .setLogger (some 2), .send, .io, .io, .io, .io, .io, .io, .io, .log .error "z", .queue 0, .send, .io, .io, .io, .io, .io]
    Own es ∧ (match run {} es with
      | some (s, _) => decide (s.lp.cb.out = [.print .info "x", .call 1 .warn "y", .destroy 1, .call 2 .verbose (releaseMsg 1),
          .call 2 .error "z"] ∧ s.lp.queue = [] ∧ s.lp.buf = [])
      | none => false) = true := by
  refine ⟨⟨by decide, by decide⟩, by decide +kernel⟩

end Mmkv.NLog
