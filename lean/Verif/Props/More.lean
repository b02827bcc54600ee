import Verif.Props.EncMap
import Verif.Props.SizeEnc
import Verif.Props.Durability
/-!
# Further forms of C16 and C44
-/

namespace Mmkv
open Spec Inst

/-- **C44** after reopen: two lives whose calls differ by a mutation done twice in a row instead of once cannot be told apart by any get after
opening again. -/
theorem C44_repeat_reopen {α : Type} {page : Nat} (h8 : 8 ≤ page) (h32 : page < 2 ^ 32) {xs ys : List (Session Unit)}
    {rss rss' : List (List (Out Unit))} {d d' : Dir Unit} (hl : Life plain page Dir.fresh xs rss d)
    (hl' : Life plain page Dir.fresh ys rss' d')
    (hfit : ∀ x ∈ xs ++ ys, ∀ e ∈ x.evs, e.Fits page) (hclean : ∀ x ∈ xs ++ ys, x.clean = true)
    (hroom : page * callCount (xs ++ ys) + 8 < 2 ^ 64) {pre post : List Mutation} {m : Mutation}
    (h1 : allCalls xs = pre ++ [m, m] ++ post) (h2 : allCalls ys = pre ++ [m] ++ post)
    (k : String) (token : BitVec 32) (f : Bytes → Out α) :
    ∃ s s', openAt plain () page d.file = some s ∧ openAt plain () page d'.file = some s' ∧
      s.getAs k token f = s'.getAs k token f := by
  have hle1 : callCount xs ≤ callCount (xs ++ ys) := by simp [callCount]
  have hle2 : callCount ys ≤ callCount (xs ++ ys) := by simp [callCount]
  have := Nat.mul_le_mul_left page hle1
  have := Nat.mul_le_mul_left page hle2
  obtain ⟨_, s, hs, hsh⟩ := C06_close_reopen h8 h32 hl (fun x hx => hfit x (List.mem_append_left _ hx))
    (fun x hx => hclean x (List.mem_append_left _ hx)) (by omega)
  obtain ⟨_, s', hs', hsh'⟩ := C06_close_reopen h8 h32 hl' (fun x hx => hfit x (List.mem_append_right _ hx))
    (fun x hx => hclean x (List.mem_append_right _ hx)) (by omega)
  refine ⟨s, s', hs, hs', ?_⟩
  have : Store.empty.run (allCalls xs) = Store.empty.run (allCalls ys) := by
    rw [h1, h2, run_append, run_append, run_append, run_append]
    congr 1
    exact apply_idem _ m
  rw [hsh α k token f, hsh' α k token f, this]

/-- **C44** with encryption: the same, whatever the keys, nonces and page sizes of the two lives. -/
theorem C44_encrypted_repeat_reopen {α : Type} (C C' : Cipher) {page page' : Nat} (h8 : 8 ≤ page) (h32 : page < 2 ^ 32) (h8' : 8 ≤ page')
    (h32' : page' < 2 ^ 32) {key key' : String} {kb kb' : Bytes}
    (hkey : decodeKey key = some kb) (hkey' : decodeKey key' = some kb') {xs ys : List EncSession} {rss rss' : List (List (Out Unit))}
    {d d' : EncDir} (hl : EncLife C page EncDir.fresh xs rss d) (hl' : EncLife C' page' EncDir.fresh ys rss' d')
    (hs : SameKey key kb page xs) (hs' : SameKey key' kb' page' ys) (hclean : ∀ x ∈ xs ++ ys, x.clean = true)
    (hroom : page * encCallCount xs + 8 < 2 ^ 64) (hctr : encCallCount xs < 2 ^ 32 - 1)
    (hroom' : page' * encCallCount ys + 8 < 2 ^ 64) (hctr' : encCallCount ys < 2 ^ 32 - 1)
    {pre post : List Mutation} {m : Mutation}
    (h1 : encAllCalls xs = pre ++ [m, m] ++ post) (h2 : encAllCalls ys = pre ++ [m] ++ post) (rand rand' : Bytes)
    (k : String) (token : BitVec 32) (f : Bytes → Out α) :
    ∃ s s', openEnc C page key rand d = some s ∧ openEnc C' page' key' rand' d' = some s' ∧
      s.getAs k token f = s'.getAs k token f := by
  obtain ⟨s, ho, hsh⟩ := C23_close_reopen C h8 h32 hkey hl hs (fun x hx => hclean x (List.mem_append_left _ hx)) hroom hctr rand
  obtain ⟨s', ho', hsh'⟩ := C23_close_reopen C' h8' h32' hkey' hl' hs' (fun x hx => hclean x (List.mem_append_right _ hx)) hroom' hctr' rand'
  refine ⟨s, s', ho, ho', ?_⟩
  have : Store.empty.run (encAllCalls xs) = Store.empty.run (encAllCalls ys) := by
    rw [h1, h2, run_append, run_append, run_append, run_append]
    congr 1
    exact apply_idem _ m
  rw [hsh α k token f, hsh' α k token f]
  exact congrArg (fun S => Store.lookup S k token f) this

/-- **C16** with encryption, a record that does not fit when no compaction is due: exactly one page more. -/
theorem C16_encrypted_one_page {C : Cipher} {k nonce : Bytes} (order : Order) (b : Buffer) {s : WState} {items : List (Option Buffer)}
    (h : EncResting C k nonce s items) (hctr : items.length < counterMax)
    (hfull : s.file.length < 8 + header s.file + encRecordSize b.key b.type b.value) (hdue : s.needTrim = false) :
    (WState.write (aeadCodec ⟨C, k, nonce⟩) order b false s).state.file.length = s.file.length + s.page := by
  obtain ⟨content, hv, hc⟩ := h.valid
  have ho := writeOffset_eq hv.usz hv.mm hv.holds
  have hne : s.position ≠ counterMax := by rw [hv.pos]; omega
  have hlen := C.encrypt_length k nonce s.position (kvToBytes b)
  have hsz : encRecordSize b.key b.type b.value = (kvToBytes b).length + 12 := (aeadLen_eq b).symm
  rcases grown_write_expand (c := aeadCodec ⟨C, k, nonce⟩) order b hv.mm
      (data := beBytes 4 (C.encrypt k nonce s.position (kvToBytes b)).length ++ C.encrypt k nonce s.position (kvToBytes b))
      (by simp [aeadCodec, aeadEnc, Stream.encrypt, hne]) ho (by
        rw [List.length_append, beBytes_length, hlen]
        omega) hdue with ⟨_, hg⟩ | ⟨hd, _⟩
  · simpa using hg.len
  · unfold WState.expand at hd
    simp [h.rest.disk] at hd

/-- Non-vacuity of `C16_encrypted_one_page` at `encDemo 0` with the flag down. -/
example : ∃ items, EncResting toy testKeyBytes nonce1 { encDemo 0 with needTrim := false } items ∧ items.length < counterMax ∧
    (encDemo 0).file.length < 8 + header (encDemo 0).file + encRecordSize "a" 2 [1] := by
  have h0 := encDemo_resting 0 (by simp)
  exact ⟨_, ⟨⟨h0.rest.target, h0.rest.mapped, h0.rest.disk, h0.rest.reads⟩, h0.reads⟩, by decide +kernel, by decide +kernel⟩

end Mmkv
