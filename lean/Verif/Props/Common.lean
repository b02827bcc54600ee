import Verif.Lemmas.Session
/-!
# Vocabulary of the property theorems

Observations a user can make of a store, in terms of the plain map of `Verif/Spec.lean`.
-/

namespace Mmkv
open Spec
variable {ι : Type}

/-- What `get` at a type (token and `from_bytes`) must return if the store is the plain map `S`. -/
def _root_.Spec.Store.lookup {α : Type} (S : Store) (key : String) (token : BitVec 32) (fromB : Bytes → Out α) : Out α :=
  match S key with
  | none => .err .keyNotFound
  | some e => if token = e.token then fromB e.bytes else .err .typeMissMatch

/-- Every possible `get` (any key, any built-in or custom type) on `s` returns what the plain map `S` says. -/
def Inst.Shows (s : Inst ι) (S : Store) : Prop :=
  ∀ (α : Type) (key : String) (token : BitVec 32) (fromB : Bytes → Out α),
    s.getAs key token fromB = Store.lookup S key token fromB

/-- No tombstone is in the in-memory map. -/
def Inst.Live (s : Inst ι) : Prop := ∀ k b, s.kv.get k = some b → b.isDeleting = false

theorem Inst.shows_iff {s : Inst ι} (hp : s.poisoned = false) (hv : s.valid = true) (hl : s.Live) {S : Store} :
    s.Shows S ↔ view s.kv = S := by
  constructor
  · intro h
    funext k
    unfold view
    cases hk : s.kv.get k with
    | none =>
      have := fun t => h Bytes k t Out.ok
      simp only [getAs, hp, hv, hk, Store.lookup] at this
      cases hS : S k with
      | none => rfl
      | some e =>
        have := this e.token
        simp [hS] at this
    | some b =>
      have := h Bytes k b.type Out.ok
      have hb := hl k b hk
      simp only [getAs, hp, hv, hk, Store.lookup, Buffer.parseAs, Buffer.checkType, hb] at this
      cases hS : S k with
      | none => simp [hS] at this
      | some e =>
        simp only [hS] at this
        by_cases ht : b.type = e.token
        · simp [ht] at this
          obtain ⟨t, v⟩ := e
          simp only at ht this
          subst ht this
          rfl
        · simp [ht] at this
  · rintro rfl α k t f
    simp only [getAs, hp, hv, Store.lookup, view]
    cases hk : s.kv.get k with
    | none => rfl
    | some b =>
      have hb := hl k b hk
      simp only [Buffer.parseAs, Buffer.checkType, hb, Option.map_some, Buffer.entry]
      by_cases ht : t = b.type <;> simp [ht]

theorem Inst.live_open {codecs : ι → Codec} {i : ι} {page : Nat} {file : Bytes} {u : Nat} {q : Option Nat} {s : Inst ι}
    (h : openAt codecs i page file u q = some s) : s.Live := by
  unfold openAt at h
  split at h
  · cases h
  · rename_i o ho
    injection h with h
    subst h
    unfold openStore at ho
    simp only [] at ho
    split at ho
    · cases ho
    · split at ho
      · cases ho
      · rename_i items _
        injection ho with ho
        subst ho
        intro k b hk
        exact ((MapWF.intoMap items).keyed k b (KvMap.mem_of_get hk)).2

theorem Inst.live_step {codecs : ι → Codec} {s s' : Inst ι} {e : Ev ι} {r : Option (Out Unit)} (h : s.Live)
    (hs : step codecs s e = some (s', r)) : s'.Live := by
  have hsame : ∀ x : Inst ι, x.kv = s.kv → x.Live := fun x hx k b hk => h k b (by rw [← hx]; exact hk)
  have herase : ∀ (x : Inst ι) k, x.kv = s.kv.erase k → x.Live := by
    intro x k hx k' b hk
    rw [hx, KvMap.get_erase] at hk
    split at hk
    · cases hk
    · exact h k' b hk
  cases e with
  | put k t bs =>
    simp only [step] at hs
    split at hs
    · cases hs
    rename_i hg
    have htok : tokenOk t = true := by
      cases ht : tokenOk t with
      | true => rfl
      | false => simp [ht] at hg
    split at hs
    · injection hs with hs; injection hs with h1 h2; subst h1; exact h
    split at hs
    · injection hs with hs; injection hs with h1 h2; subst h1; exact h
    · injection hs with hs; injection hs with h1 h2; subst h1
      intro k' b hk
      simp only [KvMap.get_insert] at hk
      split at hk
      · injection hk with hk; subst hk
        have := tokenOk_ne_deleted htok
        simp [Buffer.isDeleting, Buffer.ofRaw, this]
      · exact h k' b hk
  | delete k =>
    simp only [step] at hs
    split at hs
    · cases hs
    split at hs
    · injection hs with hs; injection hs with h1 h2; subst h1; exact h
    split at hs
    · injection hs with hs; injection hs with h1 h2; subst h1; exact h
    split at hs
    · injection hs with hs; injection hs with h1 h2; subst h1; exact h
    · injection hs with hs; injection hs with h1 h2; subst h1
      exact herase _ k rfl
  | clear =>
    simp only [step] at hs
    split at hs
    · cases hs
    split at hs
    · injection hs with hs; injection hs with h1 h2; subst h1; exact h
    split at hs
    · injection hs with hs; injection hs with h1 h2; subst h1; exact hsame _ rfl
    · injection hs with hs; injection hs with h1 h2; subst h1
      intro k b hk; simp [KvMap.get] at hk
  | drop =>
    simp only [step] at hs
    split at hs
    · cases hs
    · injection hs with hs; injection hs with h1 h2; subst h1; exact hsame _ rfl
  | io o =>
    simp only [step] at hs
    split at hs
    · cases hs
    · injection hs with hs; injection hs with h1 h2; subst h1; exact hsame _ rfl
  | api i =>
    simp only [step] at hs
    cases hp : s.phase <;> simp only [hp] at hs
    · cases hs
    · injection hs with hs; injection hs with h1 h2; subst h1; exact hsame _ rfl
    · injection hs with hs; injection hs with h1 h2; subst h1; exact hsame _ rfl
    · injection hs with hs; injection hs with h1 h2; subst h1; exact hsame _ rfl
    · split at hs <;> (injection hs with hs; injection hs with h1 h2; subst h1; exact hsame _ rfl)
    · split at hs <;> (injection hs with hs; injection hs with h1 h2; subst h1; exact hsame _ rfl)
    · split at hs
      · injection hs with hs; injection hs with h1 h2; subst h1; exact hsame _ rfl
      · split at hs
        · injection hs with hs; injection hs with h1 h2; subst h1; exact hsame _ rfl
        · cases hs
    · split at hs
      · injection hs with hs; injection hs with h1 h2; subst h1; exact hsame _ rfl
      · rename_i s1 ho
        have h1 := live_open ho
        split at hs
        · injection hs with hs; injection hs with h2 h3; subst h2; exact h1
        · split at hs
          · injection hs with hs; injection hs with h2 h3; subst h2; exact h1
          · split at hs
            · injection hs with hs; injection hs with h2 h3; subst h2; exact h1
            · cases hs
    · cases hs

theorem Inst.live_run {codecs : ι → Codec} (es : List (Ev ι)) {s s' : Inst ι} {rs : List (Out Unit)} (h : s.Live)
    (hs : run codecs s es = some (s', rs)) : s'.Live := by
  induction es generalizing s rs with
  | nil => simp only [run, Option.some.injEq, Prod.mk.injEq] at hs; obtain ⟨rfl, _⟩ := hs; exact h
  | cons e es ih =>
    unfold run at hs
    split at hs
    · cases hs
    · rename_i s1 r hstep
      split at hs
      · cases hs
      · rename_i s2 rs2 hrun
        simp only [Option.some.injEq, Prod.mk.injEq] at hs
        obtain ⟨rfl, rfl⟩ := hs
        exact ih (live_step h hstep) hrun

theorem Inst.shows_open {codecs : ι → Codec} {i : ι} {page : Nat} {file : Bytes} {u : Nat} {q : Option Nat} {s : Inst ι}
    (h : openAt codecs i page file u q = some s) {S : Store} : s.Shows S ↔ view s.kv = S := by
  have hb := book_open h
  have hph : s.phase = .idle := by
    unfold openAt at h
    split at h
    · cases h
    · injection h with h; subst h; rfl
  exact shows_iff hb.poisoned (by rw [hb.valid, hph]; rfl) (live_open h)

/-- The plain (unencrypted) store: src/core/mmkv_impl.rs:34-35, 39-40. -/
def plain : Unit → Codec := fun _ => crcCodec

/-- Bytes a put (or delete, with token 100 and no value) occupies in the plain file: four bytes of length, the protobuf
message, one byte of checksum (src/core/crc.rs:14-22). -/
def recordSize (key : String) (token : BitVec 32) (bytes : Bytes) : Nat := 4 + (kvToBytes ⟨key, token, bytes⟩).length + 1

/-- Each record fits in one page, and a `HashMap` yields each of its values once. -/
def Ev.Fits (page : Nat) : Ev ι → Prop
  | .put k t bs => recordSize k t bs ≤ page
  | .delete k => recordSize k deletedToken [] ≤ page
  | .io o => ∀ l, (o l).Perm l
  | _ => True

/-- The plain store as an instance of the general environment. -/
def plainEnv (page : Nat) (h8 : 8 ≤ page) (dirty : Prop) : Env Unit :=
  ⟨plain, crcOk, anyPos, crcLen, page, fun _ => crc_lawful, h8, dirty⟩

theorem Ev.Fits.ok {page : Nat} {h8 : 8 ≤ page} {dirty : Prop} (hp : page < 2 ^ 32) {e : Ev Unit} (h : e.Fits page) :
    e.Ok (plainEnv page h8 dirty) := by
  cases e with
  | put k t bs =>
    simp only [Ev.Fits, recordSize] at h
    simp only [Ev.Ok, plainEnv, crcOk, crcLen, Buffer.ofRaw]
    omega
  | delete k =>
    simp only [Ev.Fits, recordSize] at h
    simp only [Ev.Ok, plainEnv, crcOk, crcLen, Buffer.deleted]
    omega
  | io o => exact h
  | clear => trivial
  | api i => trivial
  | drop => trivial

theorem plain_room {page n : Nat} {h8 : 8 ≤ page} {dirty : Prop} (h : page * n + 8 < 2 ^ 64) : (plainEnv page h8 dirty).Room n := ⟨h, trivial⟩

theorem varint_length_le (v : Nat) : (varint v).length ≤ 10 := varintFuel_length_le 10 v

/-- A generous bound on the size of a record: 38 bytes more than key and value. -/
theorem recordSize_le (key : String) (token : BitVec 32) (bytes : Bytes) :
    recordSize key token bytes ≤ (strBytes key).length + bytes.length + 38 := by
  unfold recordSize kvToBytes lenDelim int32Varint
  have h1 := varint_length_le (strBytes key).length
  have h2 := varint_length_le (token.signExtend 64).toNat
  have h3 := varint_length_le bytes.length
  simp only [List.length_append]
  split <;> split <;> split <;> simp <;> omega

end Mmkv
