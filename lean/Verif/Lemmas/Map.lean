import Verif.Model.Store
import Verif.Spec
/-! The hash map and the replay of records, seen as a plain map. -/

namespace Mmkv
open Spec

namespace KvMap
variable {V : Type}

theorem get_nil (k : String) : get ([] : KvMap V) k = none := rfl

theorem get_cons (k k' : String) (v : V) (m : KvMap V) :
    get ((k, v) :: m) k' = if k = k' then some v else get m k' := by
  unfold get
  by_cases h : k = k'
  · simp [h]
  · simp [h]

theorem get_erase (m : KvMap V) (k k' : String) :
    get (erase m k) k' = if k' = k then none else get m k' := by
  induction m with
  | nil => simp [erase, get]
  | cons p m ih =>
    obtain ⟨a, v⟩ := p
    unfold erase at ih ⊢
    by_cases ha : a = k
    · subst ha
      rw [List.filter_cons_of_neg (by simp), ih, get_cons]
      by_cases h : k' = a
      · simp [h]
      · rw [if_neg h, if_neg h, if_neg (fun h' => h h'.symm)]
    · rw [List.filter_cons_of_pos (by simp [ha]), get_cons, get_cons, ih]
      by_cases h : k' = k
      · simp [h, ha]
      · simp [h]

theorem get_insert (m : KvMap V) (k k' : String) (v : V) :
    get (insert m k v) k' = if k' = k then some v else get m k' := by
  unfold insert
  rw [get_cons, get_erase]
  by_cases h : k' = k
  · simp [h]
  · rw [if_neg h, if_neg h, if_neg (fun h' => h h'.symm)]

theorem mem_of_get {m : KvMap V} {k : String} {v : V} (h : get m k = some v) : (k, v) ∈ m := by
  induction m with
  | nil => simp [get] at h
  | cons p m ih =>
    obtain ⟨a, w⟩ := p
    rw [get_cons] at h
    by_cases ha : a = k
    · simp [ha] at h; simp [ha, h]
    · simp [ha] at h; exact List.mem_cons_of_mem _ (ih h)

theorem get_of_mem {m : KvMap V} {k : String} {v : V} (hu : UniqueKeys m) (h : (k, v) ∈ m) :
    get m k = some v := by
  induction m with
  | nil => simp at h
  | cons p m ih =>
    obtain ⟨a, w⟩ := p
    unfold UniqueKeys at hu
    simp only [List.map_cons, List.nodup_cons] at hu
    rw [get_cons]
    rcases List.mem_cons.1 h with h | h
    · injection h with h1 h2; simp [h1, h2]
    · have : a ≠ k := by
        rintro rfl
        exact hu.1 (List.mem_map.2 ⟨(a, v), h, rfl⟩)
      simp [this]
      exact ih hu.2 h

theorem unique_erase {m : KvMap V} (hu : UniqueKeys m) (k : String) : UniqueKeys (erase m k) := by
  unfold UniqueKeys erase at *
  exact List.Nodup.sublist (List.Sublist.map _ List.filter_sublist) hu

theorem not_mem_erase (m : KvMap V) (k : String) : k ∉ (erase m k).map (·.1) := by
  unfold erase
  intro h
  obtain ⟨p, hp, rfl⟩ := List.mem_map.1 h
  simp at hp

theorem unique_insert {m : KvMap V} (hu : UniqueKeys m) (k : String) (v : V) : UniqueKeys (insert m k v) := by
  have := unique_erase hu k
  have h2 := not_mem_erase m k
  unfold UniqueKeys insert at *
  simp only [List.map_cons, List.nodup_cons]
  exact ⟨h2, this⟩

theorem mem_erase {m : KvMap V} {k : String} {p : String × V} (h : p ∈ erase m k) : p ∈ m :=
  (List.mem_filter.1 h).1

theorem length_erase_le (m : KvMap V) (k : String) : (erase m k).length ≤ m.length :=
  List.length_filter_le _ _

theorem length_insert_le (m : KvMap V) (k : String) (v : V) : (insert m k v).length ≤ m.length + 1 := by
  have := length_erase_le m k
  simp [insert]; omega

end KvMap

/-- What a buffer holds, as a specification entry. -/
def Buffer.entry (b : Buffer) : Entry := ⟨b.type, b.value⟩

/-- The in-memory map seen as a plain map. -/
def view (m : KvMap Buffer) : Store := fun k => (m.get k).map Buffer.entry

/-- The mutation a record stands for. -/
def Buffer.mutation (b : Buffer) : Mutation := if b.isDeleting then .delete b.key else .put b.key b.entry

/-- The mutations a list of decoded records stands for: undecodable records have no effect. -/
def mutations (items : List (Option Buffer)) : List Mutation := items.filterMap (·.map Buffer.mutation)

theorem view_nil : view [] = Store.empty := by funext k; rfl

theorem view_erase (m : KvMap Buffer) (k : String) : view (m.erase k) = (view m).apply (.delete k) := by
  funext k'
  simp only [view, Store.apply, KvMap.get_erase]
  split <;> simp

theorem view_insert (m : KvMap Buffer) (k : String) (b : Buffer) :
    view (m.insert k b) = (view m).apply (.put k b.entry) := by
  funext k'
  simp only [view, Store.apply, KvMap.get_insert]
  split <;> simp

theorem view_mapStep_none (m : KvMap Buffer) : mapStep m none = m := rfl

theorem view_mapStep_some (m : KvMap Buffer) (b : Buffer) :
    view (mapStep m (some b)) = (view m).apply b.mutation := by
  unfold mapStep Buffer.mutation
  simp only []
  split
  · exact view_erase m b.key
  · exact view_insert m b.key b

theorem view_foldl (items : List (Option Buffer)) (m : KvMap Buffer) :
    view (items.foldl mapStep m) = (view m).run (mutations items) := by
  induction items generalizing m with
  | nil => rfl
  | cons ob items ih =>
    rw [List.foldl_cons, ih]
    cases ob with
    | none => simp [mutations, mapStep]
    | some b =>
      rw [view_mapStep_some]
      simp [mutations, Store.run]

/-- Reading a list of records back is running their mutations. -/
theorem view_intoMap (items : List (Option Buffer)) :
    view (intoMap items).1 = Store.empty.run (mutations items) := by
  unfold intoMap
  rw [view_foldl, view_nil]

/-- A map as `into_map` builds it: unique keys, each value filed under its own key, no tombstones. -/
structure MapWF (m : KvMap Buffer) : Prop where
  unique : m.UniqueKeys
  keyed : ∀ k b, (k, b) ∈ m → b.key = k ∧ b.isDeleting = false

theorem MapWF.nil : MapWF [] := ⟨by simp [KvMap.UniqueKeys], by simp⟩

theorem MapWF.mapStep {m : KvMap Buffer} (h : MapWF m) (ob : Option Buffer) : MapWF (mapStep m ob) := by
  cases ob with
  | none => exact h
  | some b =>
    unfold Mmkv.mapStep
    simp only []
    split
    · exact ⟨KvMap.unique_erase h.unique _, fun k v hm => h.keyed k v (KvMap.mem_erase hm)⟩
    · rename_i hd
      refine ⟨KvMap.unique_insert h.unique _ _, ?_⟩
      intro k v hm
      unfold KvMap.insert at hm
      rcases List.mem_cons.1 hm with hm | hm
      · injection hm with h1 h2
        subst h1 h2
        exact ⟨rfl, by simpa using hd⟩
      · exact h.keyed k v (KvMap.mem_erase hm)

theorem MapWF.foldl {m : KvMap Buffer} (h : MapWF m) (items : List (Option Buffer)) :
    MapWF (items.foldl Mmkv.mapStep m) := by
  induction items generalizing m with
  | nil => exact h
  | cons ob items ih => exact ih (h.mapStep ob)

theorem MapWF.intoMap (items : List (Option Buffer)) : MapWF (intoMap items).1 := MapWF.nil.foldl items

/-- Every value of the map was in the records (or the start map). -/
theorem mem_foldl_mapStep (items : List (Option Buffer)) (m : KvMap Buffer) (k : String) (b : Buffer)
    (h : (k, b) ∈ items.foldl mapStep m) : some b ∈ items ∨ (k, b) ∈ m := by
  induction items generalizing m with
  | nil => exact .inr h
  | cons ob items ih =>
    rcases ih _ h with h | h
    · exact .inl (List.mem_cons_of_mem _ h)
    · cases ob with
      | none => exact .inr h
      | some b' =>
        unfold mapStep at h
        simp only [] at h
        split at h
        · exact .inr (KvMap.mem_erase h)
        · unfold KvMap.insert at h
          rcases List.mem_cons.1 h with h | h
          · injection h with _ h2; subst h2; exact .inl (List.mem_cons_self)
          · exact .inr (KvMap.mem_erase h)

theorem length_mapStep_le (m : KvMap Buffer) (ob : Option Buffer) : (mapStep m ob).length ≤ m.length + 1 := by
  cases ob with
  | none => simp [mapStep]
  | some b =>
    unfold mapStep
    simp only []
    split
    · have := KvMap.length_erase_le m b.key; omega
    · exact KvMap.length_insert_le _ _ _

theorem length_foldl_le (items : List (Option Buffer)) (m : KvMap Buffer) :
    (items.foldl mapStep m).length ≤ m.length + items.length := by
  induction items generalizing m with
  | nil => simp
  | cons ob items ih =>
    have := ih (mapStep m ob)
    have := length_mapStep_le m ob
    simp only [List.foldl_cons, List.length_cons]; omega

/-- A run of puts at pairwise different keys: the last value is the only one. -/
theorem run_puts (bs : List Buffer) (s : Store) (hd : ∀ b ∈ bs, b.isDeleting = false)
    (hk : (bs.map (·.key)).Nodup) (k : String) :
    s.run (mutations (bs.map some)) k =
      match bs.find? (fun b => b.key == k) with
      | some b => some b.entry
      | none => s k := by
  induction bs generalizing s with
  | nil => rfl
  | cons b bs ih =>
    simp only [List.map_cons, List.nodup_cons] at hk
    have hb := hd b (List.mem_cons_self)
    have : mutations (some b :: bs.map some) = .put b.key b.entry :: mutations (bs.map some) := by
      simp [mutations, Buffer.mutation, hb]
    simp only [List.map_cons]
    rw [this]
    show (s.apply _).run _ k = _
    rw [ih _ (fun b' h' => hd b' (List.mem_cons_of_mem _ h')) hk.2]
    by_cases hkk : b.key = k
    · have hnone : bs.find? (fun b => b.key == k) = none := by
        rw [List.find?_eq_none]
        intro x hx hxk
        simp at hxk
        exact hk.1 (List.mem_map.2 ⟨x, hx, by rw [hxk, hkk]⟩)
      rw [hnone]
      simp [hkk, Store.apply]
    · rw [List.find?_cons_of_neg (by simpa using hkk)]
      cases hf : bs.find? (fun b => b.key == k) with
      | some x => rfl
      | none =>
        simp only [Store.apply]
        rw [if_neg (fun h => hkk h.symm)]

/-- Rewriting the values of a map, in any order, gives the map back. -/
theorem run_values (m : KvMap Buffer) (h : MapWF m) (bs : List Buffer) (hp : bs.Perm m.values) :
    Store.empty.run (mutations (bs.map some)) = view m := by
  have hkeys : m.values.map (·.key) = m.map (·.1) := by
    unfold KvMap.values
    rw [List.map_map]
    apply List.map_congr_left
    intro p hp
    exact (h.keyed p.1 p.2 hp).1
  have hnd : (bs.map (·.key)).Nodup := by
    rw [(hp.map (·.key)).nodup_iff, hkeys]
    exact h.unique
  have hmem : ∀ b, b ∈ bs ↔ (b.key, b) ∈ m := by
    intro b
    rw [hp.mem_iff]
    unfold KvMap.values
    constructor
    · intro hb
      obtain ⟨p, hpm, rfl⟩ := List.mem_map.1 hb
      have := (h.keyed p.1 p.2 hpm).1
      rw [this]; exact hpm
    · intro hb; exact List.mem_map.2 ⟨_, hb, rfl⟩
  funext k
  rw [run_puts bs _ (fun b hb => (h.keyed _ b ((hmem b).1 hb)).2) hnd]
  unfold view
  cases hf : bs.find? (fun b => b.key == k) with
  | some b =>
    have h1 := List.mem_of_find?_eq_some hf
    have h2 := List.find?_some hf
    simp at h2
    subst h2
    rw [KvMap.get_of_mem h.unique ((hmem b).1 h1)]
    rfl
  | none =>
    cases hg : m.get k with
    | none => rfl
    | some b =>
      have hm := KvMap.mem_of_get hg
      have hk := (h.keyed k b hm).1
      subst hk
      rw [List.find?_eq_none] at hf
      exact absurd (by simp) (hf b ((hmem b).2 hm))

end Mmkv
