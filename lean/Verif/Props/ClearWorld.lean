import Verif.Props.EncWorld
import Verif.Props.Process
/-!
# C26 for every handle of a process
-/

namespace Mmkv
open Spec Inst World

theorem run_cleared (S0 : Store) (a b : List Mutation) : S0.run (a ++ [.clear] ++ b) = Store.empty.run b := by
  rw [run_append, run_append]
  rfl

/-- **C26**, every handle, plain: in any history of a process - any number of directories and handles, opened, shared, dropped and opened again -
once `clear_data` was called through any handle of a directory, every handle that is at rest, of the same directory or opened on it later, sees
exactly the mutations made on it since, through whichever handle; and no call has failed. -/
theorem C26_process {S : Sys Unit} {page K : Nat} (hp : Plain S page) {names : Nat → Option Nat} {inodes : List Bytes}
    (hg : GoodNames names inodes) {S0 : Nat → Store}
    (h0 : ∀ f, FileMap page K (((start names inodes : World Unit).fileAt f).getD []) (S0 f))
    {es es' : List (WEv Unit)} {h : Nat} {dir : String} {w : World Unit} {rs : List WRes}
    (hrun : World.run S (start names inodes) (es ++ [WEv.call h dir .clear] ++ es') = some (w, rs))
    (hfit : ∀ e ∈ es ++ [WEv.call h dir .clear] ++ es', e.Fits page) (hcalm : CalmRun S (start names inodes) (es ++ [WEv.call h dir .clear] ++ es'))
    (hroom : page * (K + (es ++ [WEv.call h dir .clear] ++ es').length) + 8 < 2 ^ 64) :
    (∀ x, .ret x ∈ rs → x = .ok ()) ∧
      ∀ (h' : Nat) (hd : Handle) (s : Inst Unit), w.handles[h']? = some hd → S.fileOf hd.dir = S.fileOf dir → w.store? h' = some s →
        s.phase = .idle → s.Shows (Store.empty.run (callsOf S (S.fileOf dir) es')) := by
  obtain ⟨h1, h2⟩ := C01_process hp hg h0 hrun hfit hcalm hroom
  refine ⟨h1, fun h' hd s hh hf hs hi => ?_⟩
  have := h2 h' hd s hh hs hi
  rw [hf] at this
  have hc : callsOf S (S.fileOf dir) (es ++ [WEv.call h dir .clear] ++ es') =
      callsOf S (S.fileOf dir) es ++ [.clear] ++ callsOf S (S.fileOf dir) es' := by
    simp [callsOf, List.filterMap_append]
  rw [hc, run_cleared] at this
  exact this

/-- **C26**, every handle, encrypted. -/
theorem C26_encrypted_process {C : Cipher} {page K : Nat} (h8 : 8 ≤ page) (h32 : page < 2 ^ 32) {fileOf : String → Nat} {dirOk : String → Bool}
    {keys : Nat → String} (hkeys : ∀ f, (decodeKey (keys f)).isSome = true) {names : Nat → Option Nat} {inodes : List Bytes}
    (hg : GoodNames names inodes) {n0 : Nat → Option Bytes} {S0 : Nat → Store}
    (h0 : ∀ f, EncFileMap C page K (keys f) (EncWorld.dir ⟨start names inodes, n0⟩ f) (S0 f))
    {es es' : List (WEv Bytes)} {h : Nat} {dir : String} {s : EncWorld} {rs : List WRes}
    (hrun : EncWorld.run (encProcess C page fileOf dirOk) keys ⟨start names inodes, n0⟩ (es ++ [WEv.call h dir .clear] ++ es') = some (s, rs))
    (hok : ∀ e ∈ es ++ [WEv.call h dir .clear] ++ es', e.EncOk page)
    (hcalm : EncWorld.CalmRun (encProcess C page fileOf dirOk) keys ⟨start names inodes, n0⟩ (es ++ [WEv.call h dir .clear] ++ es'))
    (hroom : page * (K + (es ++ [WEv.call h dir .clear] ++ es').length) + 8 < 2 ^ 64)
    (hctr : K + (es ++ [WEv.call h dir .clear] ++ es').length < 2 ^ 32 - 1) :
    (∀ x, .ret x ∈ rs → x = .ok ()) ∧
      ∀ (h' : Nat) (hd : Handle) (x : Inst (Bytes × Bytes)), s.w.handles[h']? = some hd → fileOf hd.dir = fileOf dir → s.w.store? h' = some x →
        x.phase = .idle → x.Shows (Store.empty.run (encCallsOn fileOf (fileOf dir) es')) := by
  obtain ⟨h1, h2⟩ := C01_encrypted_process h8 h32 hkeys hg h0 hrun hok hcalm hroom hctr
  refine ⟨h1, fun h' hd x hh hf hs hi => ?_⟩
  have := h2 h' hd x hh hs hi
  rw [hf] at this
  have hc : encCallsOn fileOf (fileOf dir) (es ++ [WEv.call h dir .clear] ++ es') =
      encCallsOn fileOf (fileOf dir) es ++ [.clear] ++ encCallsOn fileOf (fileOf dir) es' := by
    simp [encCallsOn, List.filterMap_append]
  rw [hc, run_cleared] at this
  exact this

/-- Two handles of "a": a put through one, a clear through the other, another put through the first. -/
def clearWorldDemo : List (WEv Unit) × List (WEv Unit) :=
  ([.lookup "a", .create "a" (), .lookup "a"] ++ wput 0 0 "a" "k" 1 ++ List.replicate 4 (.io 0 id),
   [.cont 0 (), .cont 0 (), .cont 0 ()] ++ List.replicate 5 (.io 0 id) ++ [.cont 0 (), .cont 0 ()] ++ wput 0 0 "a" "j" 2)

/-- The hypotheses of `C26_process` hold of this run, and the other handle sees `j` only. -/
example : ∃ w rs, World.run twoDirs (start (fun _ => none) []) (clearWorldDemo.1 ++ [.call 1 "a" .clear] ++ clearWorldDemo.2) = some (w, rs) ∧
    (∀ e ∈ clearWorldDemo.1 ++ [.call 1 "a" .clear] ++ clearWorldDemo.2, e.Fits 64) ∧
    CalmRun twoDirs (start (fun _ => none) []) (clearWorldDemo.1 ++ [.call 1 "a" .clear] ++ clearWorldDemo.2) ∧
    wget w 1 "k" = some (.err .keyNotFound) ∧ wget w 1 "j" = some (.ok 2) ∧ (w.store? 1).map (·.phase) = some .idle := by
  have h : ((World.run twoDirs (start (fun _ => none) []) (clearWorldDemo.1 ++ [.call 1 "a" .clear] ++ clearWorldDemo.2)).map fun p =>
      decide (wget p.1 1 "k" = some (.err .keyNotFound) ∧ wget p.1 1 "j" = some (.ok 2) ∧ (p.1.store? 1).map (·.phase) = some .idle)) = some true := by
    decide +kernel
  cases hr : World.run twoDirs (start (fun _ => none) []) (clearWorldDemo.1 ++ [.call 1 "a" .clear] ++ clearWorldDemo.2) with
  | none => rw [hr] at h; cases h
  | some p =>
    rw [hr] at h
    simp only [Option.map_some, Option.some.injEq, decide_eq_true_eq] at h
    refine ⟨p.1, p.2, rfl, ?_, calmRun_of _ (by decide +kernel), h⟩
    intro e he
    have hput : ∀ h o d k v, (kvToBytes ⟨k, 0, [0, 0, 0, v]⟩).length ≤ 59 → ∀ e ∈ wput h o d k v, e.Fits 64 := by
      intro h o d k v hl e he
      simp only [wput, List.mem_cons, List.not_mem_nil, or_false] at he
      rcases he with rfl | rfl | rfl
      · simp only [WEv.Fits, evOf, Ev.Fits, recordSize]; omega
      · trivial
      · trivial
    simp only [clearWorldDemo, List.mem_append, List.mem_cons, List.not_mem_nil, or_false, List.mem_replicate] at he
    rcases he with ((((rfl | rfl | rfl) | he) | ⟨_, rfl⟩) | rfl) | ((((rfl | rfl | rfl) | ⟨_, rfl⟩) | (rfl | rfl)) | he)
    all_goals first
      | trivial
      | exact hput _ _ _ _ _ (by decide) e he
      | exact fun l => List.Perm.refl l

end Mmkv
