import Verif.Props.Process
import Verif.Props.Encrypt
/-!
# C60: the key given to `new` decides access
-/

namespace Mmkv
open Spec World
variable {ι : Type}

/-- **C60 is false of this program**: as long as one handle of a directory is in use, `new` with any key at all - another
one, or one that is not even a key - returns a handle on the very same store, so everything is readable through it.
Both halves of `new` do this (src/mmkv.rs:71-80 and 83-96). -/
theorem C60_refuted {S : Sys ι} {names : Nat → Option Nat} {inodes : List Bytes} (hg : GoodNames names inodes)
    {es : List (WEv ι)} {w : World ι} {rs : List WRes} (h : World.run S (start names inodes) es = some (w, rs))
    (hp : w.poisoned = false) {h1 : Nat} {d1 : Handle} (hh1 : w.handles[h1]? = some d1) (hl1 : d1.st = .live) (i : ι) :
    ∃ w', w.step S (.lookup d1.dir) = some (w', .handle w.handles.length) ∧
      w.step S (.create d1.dir i) = some (w', .handle w.handles.length) ∧
      w'.store? w.handles.length = w.store? h1 ∧ w'.store? h1 = w.store? h1 ∧ (w.store? h1).isSome := by
  obtain ⟨_, _, hs, hu⟩ := C27_shared hg h hh1 hh1 hl1 hl1 rfl
  have hlt := getElem?_lt hh1
  refine ⟨(w.addHandle d1.dir d1.obj).1, ?_, ?_, ?_, ?_, hs⟩
  · simp [World.step, hp, hu, addHandle]
  · simp [World.step, hp, hu, addHandle]
  · simp [store?, addHandle, hh1, hl1]
  · simp [store?, addHandle, List.getElem?_append_left hlt]

/-- What `new` finds on disk in a directory. -/
def World.found (S : Sys ι) (w : World ι) (dir : String) : Bytes := (w.fileAt (S.fileOf dir)).getD []

/-- **C60**, the part that holds: once every handle made with this string has been dropped, `new` panics on a malformed
key, and if it returns a handle, the store behind it is the data file read with exactly that key. -/
theorem C60_partial {S : Sys ι} {names : Nat → Option Nat} {inodes : List Bytes} (hg : GoodNames names inodes)
    {es : List (WEv ι)} {w w' : World ι} {rs : List WRes} (h : World.run S (start names inodes) es = some (w, rs))
    {dir : String} (hgone : ∀ (k : Nat) (hd : Handle), w.handles[k]? = some hd → hd.dir = dir → hd.st = .gone) (i : ι) {r : WRes}
    (hst : w.step S (.create dir i) = some (w', r)) :
    (S.keyOk i = false → r = .panic) ∧
    ∀ k, r = .handle k → ∃ s, Inst.openAt S.codecs i S.page (w.found S dir) = some s ∧ w'.store? k = some s := by
  have R := reg_reachable hg h
  have hu : w.upgrade dir = none := by
    cases hu : w.upgrade dir with
    | none => rfl
    | some o =>
      exfalso
      obtain ⟨h1, h2⟩ := upgrade_eq hu
      obtain ⟨ob, h3, h4⟩ := R.mapOk h1
      apply h2
      unfold strong
      rw [List.countP_eq_zero]
      intro hd hm hc
      obtain ⟨k, hk⟩ := List.mem_iff_getElem?.1 hm
      simp only [Bool.and_eq_true, beq_iff_eq, bne_iff_ne] at hc
      obtain ⟨ob', h5, h6⟩ := R.hobj hk
      rw [hc.1, h3] at h5
      injection h5 with h5; subst h5
      exact hc.2 (hgone k hd hk (h6.symm.trans h4))
  simp only [World.step, hu] at hst
  split at hst
  · injection hst with hst; injection hst with g1 g2; subst g2; exact ⟨fun _ => rfl, by simp⟩
  split at hst
  · injection hst with hst; injection hst with g1 g2; subst g2; exact ⟨fun _ => rfl, by simp⟩
  obtain ⟨t1, t2, _, _⟩ := touch_objs w S.page (S.fileOf dir)
  split at hst
  · injection hst with hst; injection hst with g1 g2; subst g2; exact ⟨fun _ => rfl, by simp⟩
  rename_i hk
  split at hst
  · injection hst with hst; injection hst with g1 g2; subst g2; exact ⟨fun _ => rfl, by simp⟩
  rename_i s hs
  injection hst with hst; injection hst with g1 g2; subst g1; subst g2
  refine ⟨fun hb => absurd hb hk, ?_⟩
  intro k hkk
  simp only [WRes.handle.injEq] at hkk
  subst hkk
  refine ⟨s, ?_, ?_⟩
  · rw [touch_content R, openAt_configNew] at hs
    exact hs
  · simp [store?, t2, t1]

/-- **C60**, with encryption: a handle made with a key (and nonce) under which no record of the file authenticates, when
no other handle of the directory exists, shows an empty store. -/
theorem C60_encrypted_partial {C : Cipher} {S : Sys (Bytes × Bytes)} (hS : S.codecs = encrypted C) {names : Nat → Option Nat}
    {inodes : List Bytes} (hg : GoodNames names inodes) {es : List (WEv (Bytes × Bytes))} {w w' : World (Bytes × Bytes)} {rs : List WRes}
    (h : World.run S (start names inodes) es = some (w, rs)) {dir : String}
    (hgone : ∀ (k : Nat) (hd : Handle), w.handles[k]? = some hd → hd.dir = dir → hd.st = .gone) {i : Bytes × Bytes} {k : Nat}
    (hst : w.step S (.create dir i) = some (w', .handle k)) (hne : w.found S dir ≠ [])
    (hno : NoneAuthentic C i.1 i.2 (w.found S dir)) : ∃ s, w'.store? k = some s ∧ s.Shows Store.empty := by
  obtain ⟨s, hs, hk⟩ := (C60_partial hg h hgone i hst).2 k rfl
  refine ⟨s, hk, ?_⟩
  rw [hS] at hs
  obtain ⟨cts, hcts, s', ho, hkv⟩ := opens_under_any (j := i) hs
  rw [hs] at ho
  injection ho with ho; subst ho
  have hlen : (w.found S dir).length ≠ 0 := by simpa using hne
  simp only [configNew, hlen, if_false] at hcts
  have hnone : (cts.mapIdx fun n ct => decodeCt ⟨C, i.1, i.2⟩ n ct) = List.replicate cts.length none := by
    apply List.ext_getElem?
    intro n
    rw [List.getElem?_mapIdx, List.getElem?_replicate]
    by_cases hn : n < cts.length
    · rw [List.getElem?_eq_getElem hn, if_pos hn]
      have := hno cts hcts n _ (List.getElem?_eq_getElem hn)
      simp [decodeCt, Stream.decrypt, this]
    · rw [List.getElem?_eq_none (by omega), if_neg hn]; rfl
  have hkv0 : s.kv = [] := by
    rw [hkv, hnone]
    simp only [intoMap]
    exact foldl_mapStep_none _
  refine (Inst.shows_open hs).2 ?_
  rw [hkv0]
  rfl

/-! ### Executions -/

/-- A process with one encrypted directory (toy cipher, 80-byte pages). -/
def encSys : Sys (Bytes × Bytes) :=
  { codecs := encrypted toy, page := 80, fileOf := fun _ => 0, keyOk := fun i => i.1.length == 16 }

/-- The right key, another one, and something that is no key; each with a nonce. -/
def rightKey : Bytes × Bytes := (testKeyBytes, nonce1)
def otherKey : Bytes × Bytes := (testKeyBytes.set 15 127, nonce1)
def noKey : Bytes × Bytes := ([1, 2, 3], nonce1)

/-- A put through handle `h` on store 0, up to its return and to the file. -/
def encPutW (h : Nat) (k : String) (v : UInt8) : List (WEv (Bytes × Bytes)) :=
  [.call h "d" (.put k ⟨0, [0, 0, 0, v]⟩), .cont 0 rightKey, .cont 0 rightKey] ++ List.replicate 4 (.io 0 id)

/-- `clear_data` through handle `h`, which was made with key `i`, on store 0. -/
def encClearW (h : Nat) (i : Bytes × Bytes) : List (WEv (Bytes × Bytes)) :=
  [.call h "d" .clear, .cont 0 i, .cont 0 i, .cont 0 i] ++ List.replicate 5 (.io 0 id) ++ [.cont 0 i, .cont 0 i]

/-- What calls returned, and what `get::<i32>` returns through a handle. -/
def encRets (p : World (Bytes × Bytes) × List WRes) : List (Out Unit) := p.2.filterMap fun | .ret r => some r | _ => none
def encGet (w : World (Bytes × Bytes)) (h : Nat) (k : String) : Option (Out Int) :=
  (w.store? h).map fun s => s.getAs k Ty.i32.token fun b => .ok (beVal b)

/-- **C60 is false of this program**, executions.  A put under the right key is read through a handle made with three bytes
that are no key at all.  `clear_data` through a handle made with another key returns `Ok` and re-creates the store under
that other key: what the first handle puts afterwards cannot be read with the right key, only with the other one.
`clear_data` through the handle with the malformed key empties the directory, panics, and breaks the store for the first
handle: its next put is a lock error. -/
theorem C60_refuted_executions :
    ((start (fun _ => none) []).run encSys ([.create "d" rightKey] ++ encPutW 0 "a" 7 ++ [.lookup "d", .create "d" noKey])).map (fun p =>
        (encRets p, encGet p.1 1 "a", encGet p.1 2 "a")) = some ([.ok ()], some (.ok 7), some (.ok 7)) ∧
    ((start (fun _ => none) []).run encSys ([.create "d" rightKey, .create "d" otherKey] ++ encClearW 1 otherKey ++ encPutW 0 "a" 7)).map (fun p =>
        (encRets p, encGet p.1 0 "a",
          [rightKey, otherKey].map fun i => (Inst.openAt (encrypted toy) i 80 (p.1.found encSys "d")).map fun s => s.kv.map (·.1))) =
      some ([.ok (), .ok ()], some (.ok 7), [some [], some ["a"]]) ∧
    ((start (fun _ => none) []).run encSys ([.create "d" rightKey, .create "d" noKey] ++ encPutW 0 "a" 7 ++ encClearW 1 noKey ++
        [.call 0 "d" (.put "b" ⟨0, [0, 0, 0, 1]⟩)])).map (fun p => (encRets p, encGet p.1 0 "a")) =
      some ([.ok (), .panic, .err (.lockError "")], some (.err (.lockError ""))) := by
  refine ⟨?_, ?_, ?_⟩ <;> decide +kernel

/-- The hypotheses of `C60_refuted` are met by the first of these executions. -/
example : ∃ (w : World (Bytes × Bytes)) (rs : List WRes) (d1 : Handle),
    (start (fun _ => none) []).run encSys ([.create "d" rightKey] ++ encPutW 0 "a" 7) = some (w, rs) ∧ w.poisoned = false ∧
    w.handles[0]? = some d1 ∧ d1.st = .live := by
  have h : (((start (fun _ => none) []).run encSys ([.create "d" rightKey] ++ encPutW 0 "a" 7)).map fun p =>
      decide (p.1.poisoned = false ∧ p.1.handles = [⟨"d", 0, .live⟩])) = some true := by decide +kernel
  rw [Option.map_eq_some_iff] at h
  obtain ⟨⟨w, rs⟩, h1, h2⟩ := h
  simp only [decide_eq_true_eq] at h2
  exact ⟨w, rs, _, h1, h2.1, by rw [h2.2]; rfl, rfl⟩

/-- The hypotheses of `C60_partial` and `C60_encrypted_partial` are met: after a close, `new` with the other key returns a
handle, with the file not empty and none of its records authentic. -/
example : ∃ (w w' : World (Bytes × Bytes)) (rs : List WRes) (k : Nat),
    (start (fun _ => none) []).run encSys ([.create "d" rightKey] ++ encPutW 0 "a" 7 ++ [.drop1 0, .drop2 0, .io 0 id]) = some (w, rs) ∧
    (∀ (k : Nat) (hd : Handle), w.handles[k]? = some hd → hd.dir = "d" → hd.st = .gone) ∧
    w.step encSys (.create "d" otherKey) = some (w', .handle k) ∧ w.found encSys "d" ≠ [] ∧
    NoneAuthentic toy otherKey.1 otherKey.2 (w.found encSys "d") := by
  have h : (((start (fun _ => none) []).run encSys ([.create "d" rightKey] ++ encPutW 0 "a" 7 ++ [.drop1 0, .drop2 0, .io 0 id])).map fun p =>
      (decide (p.1.handles = [⟨"d", 0, .gone⟩] ∧ p.1.found encSys "d" ≠ []), (cipherTexts (p.1.found encSys "d")).map List.length,
        (cipherTexts (p.1.found encSys "d")).map fun cts => (toy.decrypt otherKey.1 otherKey.2 0 (cts.getD 0 [])).isNone,
        (p.1.step encSys (.create "d" otherKey)).map (·.2))) =
      some (true, some 1, some true, some (.handle 1)) := by decide +kernel
  rw [Option.map_eq_some_iff] at h
  obtain ⟨⟨w, rs⟩, h1, h2⟩ := h
  simp only [Prod.mk.injEq, decide_eq_true_eq] at h2
  obtain ⟨⟨h3, h4⟩, h5, h6, h7⟩ := h2
  rw [Option.map_eq_some_iff] at h7
  obtain ⟨⟨w', r⟩, h8, h9⟩ := h7
  simp only at h9; subst h9
  refine ⟨w, w', rs, 1, h1, ?_, h8, h4, ?_⟩
  · intro k hd hk _
    rw [h3] at hk
    have := List.mem_of_getElem? hk
    simp only [List.mem_singleton] at this
    subst this; rfl
  · intro cts hc n ct hn
    rw [hc] at h5 h6
    simp only [Option.map_some, Option.some.injEq] at h5 h6
    have h0 : n = 0 := by have := getElem?_lt hn; omega
    subst h0
    rw [List.getD_eq_getElem?_getD, hn] at h6
    simpa using h6

end Mmkv
