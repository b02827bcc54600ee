import Verif.Lemmas.Durable
import Verif.Model.Session
/-! Several sessions on one directory. -/

namespace Mmkv
open Spec
variable {ι : Type}

theorem GoodFile.mono {E : Env ι} {c : Codec} {K K' : Nat} {file : Bytes} {S : Store} (h : GoodFile E c K file S)
    (hk : K ≤ K') : GoodFile E c K' file S := by
  cases h with
  | empty => exact .empty
  | held hh hf hb hsz hk' hs hn => exact .held hh hf hb hsz (Nat.le_trans hk' hk) (Nat.le_trans hs (Nat.mul_le_mul_left _ hk)) hn

/-- A good directory: its file is good under every key and nonce that may open it. -/
def GoodDir (E : Env ι) (K : Nat) (d : Dir ι) (S : Store) : Prop :=
  ∀ i, (∀ j, d.idx = some j → i = j) → GoodFile E (E.codecs i) K d.file S

theorem goodDir_fresh (E : Env ι) (K : Nat) : GoodDir E K Dir.fresh Store.empty := fun _ _ => .empty

/-- The number of mutating calls of some sessions. -/
def callCount (xs : List (Session ι)) : Nat := (xs.map fun x => (calls x.evs).length).sum

/-- The mutations of some sessions, for the specification. -/
def sessionCalls (xs : List (Session ι)) : List (List Mutation × Bool) := xs.map fun x => (calls x.evs, x.clean)

open Inst in
theorem goodDir_end {E : Env ι} {S0 : Store} {K : Nat} {cs : List Mutation} {s : Inst ι} (h : DInv E S0 K cs s)
    (clean : Bool) (hc : clean = true → s.closedOk) :
    ∃ m, m ≤ cs.length ∧ (clean = true → m = cs.length) ∧ GoodDir E (K + cs.length) s.dir (S0.run (cs.take m)) := by
  cases clean with
  | true =>
    obtain ⟨hnr, hg⟩ := disk_closed h (hc rfl)
    refine ⟨cs.length, Nat.le_refl _, fun _ => rfl, ?_⟩
    intro i hi
    have : i = s.idx := hi _ (by simp [dir, hnr])
    subst this
    simpa [dir] using hg
  | false =>
    cases hr : s.lp.cb.removed with
    | false =>
      obtain ⟨m, hm, hg⟩ := disk_prefix h s.idx (fun _ => rfl)
      refine ⟨m, hm, by simp, ?_⟩
      intro i hi
      have : i = s.idx := hi _ (by simp [dir, hr])
      subst this
      exact hg
    | true =>
      obtain ⟨m, hm, hg⟩ := disk_prefix h s.idx (by simp [hr])
      refine ⟨m, hm, by simp, ?_⟩
      have hd : s.disk = [] := by simp [disk, hr]
      intro i hi
      obtain ⟨hS⟩ : Nonempty (S0.run (cs.take m) = Store.empty) := by
        rw [hd] at hg
        generalize S0.run (cs.take m) = S at hg
        cases hg with
        | empty => exact ⟨rfl⟩
        | held hh => exact absurd hh.len (by simp)
      show GoodFile E _ _ s.disk _
      rw [hd, hS]
      exact .empty

/-- The main theorem about several sessions. -/
theorem life_survives {E : Env ι} {K : Nat} {d d' : Dir ι} {xs : List (Session ι)} {rss : List (List (Out Unit))}
    {S0 : Store} (hl : Life E.codecs E.page d xs rss d') (hg : GoodDir E K d S0)
    (hok : ∀ x ∈ xs, ∀ e ∈ x.evs, e.Ok E) (hroom : E.Room (K + callCount xs)) :
    (∀ rs ∈ rss, ∀ r ∈ rs, r = .ok ()) ∧
      ∃ S, Survives S0 (sessionCalls xs) S ∧ GoodDir E (K + callCount xs) d' S := by
  induction hl generalizing K S0 with
  | nil d => exact ⟨by simp, S0, .nil _, by simpa [callCount] using hg⟩
  | @cons d d' x xs s s' rs rss hi ho hr hc rest ih =>
    have hne : Nonempty ι := ⟨x.i⟩
    obtain ⟨s1, hs1, hinv, _⟩ := Inst.dinv_open (hg x.i hi)
    rw [ho] at hs1
    injection hs1 with hs1
    subst hs1
    have hcnt : callCount (x :: xs) = (calls x.evs).length + callCount xs := by simp [callCount]
    rw [hcnt] at hroom ⊢
    obtain ⟨hr1, hinv'⟩ := Inst.dinv_run x.evs hinv (hok x List.mem_cons_self)
      (by simp only [List.length_nil, Nat.add_zero]; exact hroom.mono (by omega)) hr
    rw [List.nil_append] at hinv'
    obtain ⟨m, hm, hmc, hg'⟩ := goodDir_end hinv' x.clean hc
    obtain ⟨hr2, S, hS, hgS⟩ := ih hg' (fun y hy => hok y (List.mem_cons_of_mem _ hy))
      (by rw [Nat.add_assoc]; exact hroom)
    refine ⟨?_, S, .cons m hm hmc hS, by rw [← Nat.add_assoc]; exact hgS⟩
    intro rs' hrs'
    rcases List.mem_cons.1 hrs' with rfl | h
    · exact hr1
    · exact hr2 rs' h

/-- Nothing is lost when every session is closed cleanly. -/
theorem survives_clean {S S' : Store} {l : List (List Mutation × Bool)} (h : Survives S l S')
    (hc : ∀ p ∈ l, p.2 = true) : S' = S.run (l.map (·.1)).flatten := by
  induction h with
  | nil S => rfl
  | @cons S S' ms clean rest m hm hmc h ih =>
    have := hmc (hc _ List.mem_cons_self)
    subst this
    rw [ih (fun p hp => hc p (List.mem_cons_of_mem _ hp))]
    simp [run_append]

theorem openAt_goodDir {E : Env ι} {K : Nat} {d : Dir ι} {S : Store} (h : GoodDir E K d S) (i : ι)
    (hi : ∀ j, d.idx = some j → i = j) : ∃ s, Inst.openAt E.codecs i E.page d.file = some s ∧ view s.kv = S := by
  obtain ⟨s, hs, hd, _⟩ := Inst.dinv_open (h i hi)
  exact ⟨s, hs, by simpa [Store.run] using hd.kvView⟩

end Mmkv
