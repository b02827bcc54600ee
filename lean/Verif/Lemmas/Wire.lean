import Verif.SpecFormat
import Verif.Lemmas.Proto
import Verif.Lemmas.Bytes
/-! The protobuf reader of the model accepts exactly the wire format. -/

namespace Mmkv
open Spec.Format

theorem varint_pos {p : Bytes} {v : Nat} (h : Varint p v) : 0 < p.length := by cases h <;> simp

theorem readVarintFuel_iff (fuel : Nat) (bs : Bytes) (v : Nat) (rest : Bytes) :
    readVarintFuel fuel bs = some (v, rest) ↔ ∃ p, bs = p ++ rest ∧ Varint p v ∧ p.length ≤ fuel := by
  induction fuel generalizing bs v rest with
  | zero =>
    simp only [readVarintFuel, reduceCtorEq, false_iff]
    rintro ⟨p, _, h, hl⟩
    have := varint_pos h
    omega
  | succ fuel ih =>
    cases bs with
    | nil =>
      simp only [readVarintFuel, reduceCtorEq, false_iff]
      rintro ⟨p, hp, h, _⟩
      have := varint_pos h
      have hp := (List.nil_eq_append_iff.1 hp).1
      subst hp
      simp at this
    | cons b bs =>
      simp only [readVarintFuel]
      by_cases hb : b.toNat < 128
      · rw [if_pos hb]
        constructor
        · intro h
          simp only [Option.some.injEq, Prod.mk.injEq] at h
          obtain ⟨rfl, rfl⟩ := h
          exact ⟨[b], rfl, .last b hb, by simp⟩
        · rintro ⟨p, hp, h, _⟩
          cases h with
          | last c hc =>
            simp only [List.cons_append, List.nil_append, List.cons.injEq] at hp
            obtain ⟨rfl, rfl⟩ := hp
            rfl
          | more c cs w hc hw =>
            simp only [List.cons_append, List.cons.injEq] at hp
            obtain ⟨rfl, _⟩ := hp
            omega
      · rw [if_neg hb]
        constructor
        · intro h
          split at h
          · rename_i w r hr
            simp only [Option.some.injEq, Prod.mk.injEq] at h
            obtain ⟨rfl, rfl⟩ := h
            obtain ⟨p, rfl, hv, hl⟩ := (ih _ _ _).1 hr
            exact ⟨b :: p, rfl, .more b p w (by omega) hv, by simpa using hl⟩
          · cases h
        · rintro ⟨p, hp, h, hl⟩
          cases h with
          | last c hc =>
            simp only [List.cons_append, List.nil_append, List.cons.injEq] at hp
            obtain ⟨rfl, _⟩ := hp
            omega
          | more c cs w hc hw =>
            simp only [List.cons_append, List.cons.injEq] at hp
            obtain ⟨rfl, rfl⟩ := hp
            rw [(ih _ _ _).2 ⟨cs, rfl, hw, by simpa using hl⟩]

theorem readVarint_iff {bs : Bytes} {v : Nat} {rest : Bytes} :
    readVarint bs = some (v, rest) ↔ ∃ p, bs = p ++ rest ∧ Varint64 p v := by
  unfold readVarint
  constructor
  · intro h
    split at h
    · rename_i w r hr
      split at h
      · rename_i hlt
        simp only [Option.some.injEq, Prod.mk.injEq] at h
        obtain ⟨rfl, rfl⟩ := h
        obtain ⟨p, hp, hv, hl⟩ := (readVarintFuel_iff _ _ _ _).1 hr
        exact ⟨p, hp, hv, hl, hlt⟩
      · cases h
    · cases h
  · rintro ⟨p, hp, hv, hl, hlt⟩
    rw [(readVarintFuel_iff _ _ _ _).2 ⟨p, hp, hv, hl⟩]
    simp only
    rw [if_pos hlt]

theorem readLenDelim_iff {bs q rest : Bytes} :
    readLenDelim bs = some (q, rest) ↔ ∃ l, bs = l ++ (q ++ rest) ∧ Varint64 l q.length := by
  unfold readLenDelim
  constructor
  · intro h
    split at h
    · rename_i n r hr
      split at h
      · rename_i hle
        simp only [Option.some.injEq, Prod.mk.injEq] at h
        obtain ⟨rfl, rfl⟩ := h
        obtain ⟨p, hp, hv⟩ := readVarint_iff.1 hr
        exact ⟨p, by rw [hp, List.take_append_drop], by rw [List.length_take, Nat.min_eq_left hle]; exact hv⟩
      · cases h
    · cases h
  · rintro ⟨l, hl, hv⟩
    rw [readVarint_iff.2 ⟨l, hl, hv⟩]
    simp

/-- The message of the format as the buffer of the code. -/
def ofKv (m : Kv) : Buffer := ⟨m.key, m.type, m.value⟩
/-- And back. -/
def toKv (b : Buffer) : Kv := ⟨b.key, b.type, b.value⟩

@[simp] theorem ofKv_toKv (b : Buffer) : ofKv (toKv b) = b := rfl
@[simp] theorem toKv_ofKv (m : Kv) : toKv (ofKv m) = m := rfl

/-- One field, read by the code, is one field of the format. -/
theorem kvField_iff {acc acc' : Buffer} {bs rest : Bytes} :
    kvField acc bs = some (acc', rest) ↔
      ∃ f n p, bs = f ++ rest ∧ Field f n p ∧ merge (toKv acc) (n, p) = some (toKv acc') := by
  constructor
  · intro h
    unfold kvField at h
    split at h
    · cases h
    · rename_i tag r hr
      obtain ⟨t, rfl, ht⟩ := readVarint_iff.1 hr
      split at h
      · rename_i h10
        subst h10
        split at h
        · cases h
        · rename_i p r' hp
          obtain ⟨l, rfl, hl⟩ := readLenDelim_iff.1 hp
          simp only [Option.map_eq_some_iff, Prod.mk.injEq] at h
          obtain ⟨s, hs, rfl, rfl⟩ := h
          refine ⟨_, 1, _, ?_, .len (by omega) ht hl, ?_⟩
          · simp
          · simp only [merge]
            rw [show String.fromUTF8? ⟨p.toArray⟩ = some s from hs]
            rfl
      · split at h
        · rename_i h16
          subst h16
          simp only [Option.map_eq_some_iff, Prod.mk.injEq, Prod.exists] at h
          obtain ⟨v, r', hv, rfl, rfl⟩ := h
          obtain ⟨p, rfl, hp⟩ := readVarint_iff.1 hv
          exact ⟨_, 2, _, by simp, .varint (by omega) ht hp, rfl⟩
        · split at h
          · rename_i h26
            subst h26
            simp only [Option.map_eq_some_iff, Prod.mk.injEq, Prod.exists] at h
            obtain ⟨q, r', hq, rfl, rfl⟩ := h
            obtain ⟨l, rfl, hl⟩ := readLenDelim_iff.1 hq
            exact ⟨_, 3, _, by simp, .len (by omega) ht hl, rfl⟩
          · rename_i n10 n16 n26
            simp only [Option.map_eq_some_iff, Prod.mk.injEq] at h
            obtain ⟨r', hs, rfl, rfl⟩ := h
            unfold skipUnknown at hs
            split at hs
            · cases hs
            · rename_i h0
              split at hs
              · rename_i hw
                simp only [Option.map_eq_some_iff, Prod.exists] at hs
                obtain ⟨w, v, hv, rfl⟩ := hs
                obtain ⟨p, rfl, hp⟩ := readVarint_iff.1 hv
                refine ⟨t ++ p, tag / 8, .varint w, by simp, .varint (by omega) (by rwa [show 8 * (tag / 8) + 0 = tag by omega]) hp, ?_⟩
                have : tag / 8 ≠ 2 := by omega
                simp only [merge]
                split <;> simp_all
              · split at hs
                · rename_i hw
                  split at hs
                  · rename_i hle
                    simp only [Option.some.injEq] at hs
                    subst hs
                    exact ⟨t ++ r.take 8, tag / 8, .i64 (r.take 8), by simp [List.take_append_drop],
                      .i64 (by omega) (by rwa [show 8 * (tag / 8) + 1 = tag by omega]) (by simp [hle]), by simp [merge]⟩
                  · cases hs
                · split at hs
                  · rename_i hw
                    simp only [Option.map_eq_some_iff, Prod.exists] at hs
                    obtain ⟨q, r'', hq, rfl⟩ := hs
                    obtain ⟨l, rfl, hl⟩ := readLenDelim_iff.1 hq
                    refine ⟨t ++ (l ++ q), tag / 8, .len q, by simp, .len (by omega) (by rwa [show 8 * (tag / 8) + 2 = tag by omega]) hl, ?_⟩
                    have h1 : tag / 8 ≠ 1 := by omega
                    have h3 : tag / 8 ≠ 3 := by omega
                    simp only [merge]
                    split <;> simp_all
                  · split at hs
                    · rename_i hw
                      split at hs
                      · rename_i hle
                        simp only [Option.some.injEq] at hs
                        subst hs
                        exact ⟨t ++ r.take 4, tag / 8, .i32 (r.take 4), by simp [List.take_append_drop],
                          .i32 (by omega) (by rwa [show 8 * (tag / 8) + 5 = tag by omega]) (by simp [hle]), by simp [merge]⟩
                      · cases hs
                    · cases hs
  · rintro ⟨f, n, p, rfl, hf, hm⟩
    unfold kvField
    cases hf with
    | @varint t q _ v hn ht hp =>
      rw [readVarint_iff.2 ⟨t, List.append_assoc .., ht⟩]
      simp only
      rw [if_neg (by omega)]
      by_cases h2 : n = 2
      · subst h2
        rw [if_pos (by omega), readVarint_iff.2 ⟨q, rfl, hp⟩]
        simp only [merge, Option.some.injEq] at hm
        simp only [Option.map_some, Option.some.injEq, Prod.mk.injEq, and_true]
        exact congrArg ofKv hm
      · rw [if_neg (by omega), if_neg (by omega)]
        unfold skipUnknown
        rw [if_neg (by omega), if_pos (by omega), readVarint_iff.2 ⟨q, rfl, hp⟩]
        have : merge (toKv acc) (n, .varint v) = some (toKv acc) := by
          simp only [merge]; split <;> simp_all
        rw [this] at hm
        simp only [Option.map_some, Option.some.injEq, Prod.mk.injEq, and_true] at hm ⊢
        exact congrArg ofKv hm
    | @i64 t q _ hn ht hp =>
      rw [readVarint_iff.2 ⟨t, List.append_assoc .., ht⟩]
      simp only
      rw [if_neg (by omega), if_neg (by omega), if_neg (by omega)]
      unfold skipUnknown
      rw [if_neg (by omega), if_neg (by omega), if_pos (by omega), if_pos (by simp; omega)]
      have : merge (toKv acc) (n, .i64 q) = some (toKv acc) := by simp [merge]
      rw [this] at hm
      simp only [Option.map_some, Option.some.injEq, Prod.mk.injEq] at hm ⊢
      exact ⟨congrArg ofKv hm, by rw [← hp]; simp⟩
    | @i32 t q _ hn ht hp =>
      rw [readVarint_iff.2 ⟨t, List.append_assoc .., ht⟩]
      simp only
      rw [if_neg (by omega), if_neg (by omega), if_neg (by omega)]
      unfold skipUnknown
      rw [if_neg (by omega), if_neg (by omega), if_neg (by omega), if_neg (by omega), if_pos (by omega), if_pos (by simp; omega)]
      have : merge (toKv acc) (n, .i32 q) = some (toKv acc) := by simp [merge]
      rw [this] at hm
      simp only [Option.map_some, Option.some.injEq, Prod.mk.injEq] at hm ⊢
      exact ⟨congrArg ofKv hm, by rw [← hp]; simp⟩
    | @len t l q _ hn ht hl =>
      rw [readVarint_iff.2 ⟨t, List.append_assoc .., ht⟩]
      simp only [List.append_assoc]
      by_cases h1 : n = 1
      · subst h1
        rw [if_pos (by omega), readLenDelim_iff.2 ⟨l, rfl, hl⟩]
        simp only [merge, Option.map_eq_some_iff] at hm
        obtain ⟨s, hs, hm⟩ := hm
        simp only [strOfBytes]
        rw [hs]
        simp only [Option.map_some, Option.some.injEq, Prod.mk.injEq, and_true]
        exact congrArg ofKv hm
      · rw [if_neg (by omega), if_neg (by omega)]
        by_cases h3 : n = 3
        · subst h3
          rw [if_pos (by omega), readLenDelim_iff.2 ⟨l, rfl, hl⟩]
          simp only [merge, Option.some.injEq] at hm
          simp only [Option.map_some, Option.some.injEq, Prod.mk.injEq, and_true]
          exact congrArg ofKv hm
        · rw [if_neg (by omega)]
          unfold skipUnknown
          rw [if_neg (by omega), if_neg (by omega), if_neg (by omega), if_pos (by omega), readLenDelim_iff.2 ⟨l, rfl, hl⟩]
          have : merge (toKv acc) (n, .len q) = some (toKv acc) := by
            simp only [merge]; split <;> simp_all
          rw [this] at hm
          simp only [Option.map_some, Option.some.injEq, Prod.mk.injEq, and_true] at hm ⊢
          exact congrArg ofKv hm

theorem field_pos {f : Bytes} {n : Nat} {p : Payload} (h : Field f n p) : 0 < f.length := by
  cases h with
  | varint _ ht _ => have := varint_pos ht.1; simp; omega
  | i64 _ ht _ => have := varint_pos ht.1; simp; omega
  | len _ ht _ => have := varint_pos ht.1; simp; omega
  | i32 _ ht _ => have := varint_pos ht.1; simp; omega

theorem kvLoop_iff (fuel : Nat) (acc : Buffer) (bs : Bytes) (hf : bs.length ≤ fuel) (b : Buffer) :
    kvLoop fuel acc bs = some b ↔ ∃ fs, Message bs fs ∧ mergeAll (toKv acc) fs = some (toKv b) := by
  induction fuel generalizing acc bs with
  | zero =>
    have : bs = [] := List.length_eq_zero_iff.1 (by omega)
    subst this
    simp only [kvLoop, Option.some.injEq]
    constructor
    · rintro rfl; exact ⟨[], .nil, rfl⟩
    · rintro ⟨fs, hm, h⟩
      generalize hb : ([] : Bytes) = x at hm
      cases hm with
      | nil => exact congrArg ofKv (Option.some.inj h)
      | cons hfd _ =>
        have := field_pos hfd
        have h2 := congrArg List.length hb
        simp at h2; omega
  | succ fuel ih =>
    cases bs with
    | nil =>
      simp only [kvLoop, Option.some.injEq]
      constructor
      · rintro rfl; exact ⟨[], .nil, rfl⟩
      · rintro ⟨fs, hm, h⟩
        generalize hb : ([] : Bytes) = x at hm
        cases hm with
        | nil => exact congrArg ofKv (Option.some.inj h)
        | cons hfd _ =>
          have := field_pos hfd
          have h2 := congrArg List.length hb
          simp at h2; omega
    | cons x bs =>
      simp only [kvLoop]
      constructor
      · intro h
        split at h
        · rename_i acc' rest hk
          obtain ⟨f, n, p, hfe, hfd, hm⟩ := kvField_iff.1 hk
          have hpos := field_pos hfd
          have hlen := congrArg List.length hfe
          simp only [List.length_cons, List.length_append] at hlen hf
          obtain ⟨fs, hms, hma⟩ := (ih acc' rest (by omega)).1 h
          refine ⟨(n, p) :: fs, hfe ▸ .cons hfd hms, ?_⟩
          simp only [mergeAll]
          rw [hm]
          exact hma
        · cases h
      · rintro ⟨fs, hms, hma⟩
        generalize hy : x :: bs = y at hms hf
        cases hms with
        | nil => cases hy
        | @cons f rest n p fs hfd hr =>
          simp only [mergeAll, Option.bind_eq_some_iff] at hma
          obtain ⟨m, hm, hma⟩ := hma
          have hpos := field_pos hfd
          simp only [List.length_append] at hf
          rw [kvField_iff.2 ⟨f, n, p, rfl, hfd, (by rw [toKv_ofKv]; exact hm : _ = some (toKv (ofKv m)))⟩]
          exact (ih (ofKv m) rest (by omega)).2 ⟨fs, hr, by rw [toKv_ofKv]; exact hma⟩

/-- The reader of the code accepts exactly the messages of the format, and reads them as the format says. -/
theorem kvFromBytes_iff {bs : Bytes} {b : Buffer} : kvFromBytes bs = some b ↔ IsKv bs (toKv b) :=
  kvLoop_iff _ _ _ (Nat.le_refl _) _

theorem num_eq_beVal (bs : Bytes) : num bs = beVal bs := by
  induction bs with
  | nil => rfl
  | cons b bs ih => rw [beVal_cons, num, ih]

end Mmkv
