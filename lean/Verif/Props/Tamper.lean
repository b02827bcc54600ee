import Verif.Props.Format
import Verif.Props.EncMap
/-!
# C101: rewriting the files of an encrypted store without the key

Every record of an encrypted file is sealed for its position under the key and the nonce of the directory (src/core/encrypt.rs:105-129),
and a record that does not authenticate is skipped when the file is read (src/core/iter.rs:39-62).  Nothing seals the file
as a whole: neither the number of records nor which of them belong together.  Whoever has seen the file at several moments can therefore
mix the records of these moments, position by position, and leave out any of them - and nothing more.
-/

namespace Mmkv
open Spec Inst
open Spec.Format (num IsKv Sealed SealedFile contents Kv)

/-! ### The specification -/

/-- A record as it lies in an encrypted file: four bytes of length, then the ciphertext. -/
def ctFrame (ct : Bytes) : Bytes := beBytes 4 ct.length ++ ct

/-- What can be put together without any key from encrypted files seen before: a file each of whose records is a ciphertext that one
of the files seen has at the very same position, or is empty. -/
def Tampered (seen : List Bytes) (file : Bytes) : Prop :=
  ∃ (cts : List Bytes) (slack : Bytes), file = fileOf (cts.map ctFrame) slack ∧
    ∀ (p : Nat) (ct : Bytes), cts[p]? = some ct → ct = [] ∨ ∃ f ∈ seen, ∃ cs, cipherTexts f = some cs ∧ cs[p]? = some ct

/-- Nothing in this file is forged: whatever record of it authenticates, one of the files seen has it at the very same position.  (That
nobody can forge a record is what the cipher is for; it cannot be demanded of all ciphertexts, only of those somebody comes up with.) -/
def NotForged (C : Cipher) (k nonce : Bytes) (seen : List Bytes) (file : Bytes) : Prop :=
  ∀ cts, cipherTexts file = some cts → ∀ (p : Nat) (ct : Bytes), cts[p]? = some ct → C.decrypt k nonce p ct ≠ none →
    ∃ f ∈ seen, ∃ cs, cipherTexts f = some cs ∧ cs[p]? = some ct

/-- A mix of several logs: at each position, the record one of them has there, or none. -/
def Mixed (logs : List (List Kv)) (mix : List (Option Kv)) : Prop :=
  ∀ (p : Nat) (kv : Kv), mix[p]? = some (some kv) → ∃ log ∈ logs, log[p]? = some kv

/-! ### Ciphertexts of a sealed file -/

theorem sealed_boxes {C : Cipher} {k n : Bytes} {pos : Nat} {content : Bytes} {kvs : List Kv} (h : Sealed (openSealed C k n) pos content kvs) :
    ∃ cts : List Bytes, cts.length = kvs.length ∧ (∀ fuel, content.length ≤ fuel → cipherFrames fuel content = some cts) ∧
      (∀ p ct, cts[p]? = some ct → ∃ kv, kvs[p]? = some kv ∧ decodeCt ⟨C, k, n⟩ (pos + p) ct = some (ofKv kv)) ∧
      ∀ ct ∈ cts, ct.length + 4 ≤ content.length := by
  induction h with
  | nil pos => exact ⟨[], rfl, fun fuel _ => by cases fuel <;> rfl, by simp, by simp⟩
  | @cons pos len box rest msg kv kvs h4 hn hu hk hs ih =>
    obtain ⟨cts, e1, e2, e3, e4⟩ := ih
    rw [num_eq_beVal] at hn
    refine ⟨box :: cts, by simp [e1], ?_, ?_, ?_⟩
    · intro fuel hf
      cases hcc : len ++ (box ++ rest) with
      | nil => simp at hcc; rw [hcc.1] at h4; simp at h4
      | cons b bs =>
        cases fuel with
        | zero => rw [hcc] at hf; simp at hf
        | succ fuel =>
          have ht : (len ++ (box ++ rest)).take 4 = len := by rw [List.take_append_of_le_length (by omega), List.take_of_length_le (by omega)]
          have hd : (len ++ (box ++ rest)).drop 4 = box ++ rest := by rw [List.drop_append_of_le_length (by omega), List.drop_of_length_le (by omega)]; rfl
          unfold cipherFrames
          rw [← hcc]
          simp only [ht, hn]
          rw [if_neg (by simp; omega), ← List.drop_drop, hd, List.take_left' rfl, List.drop_left' rfl,
            e2 fuel (by simp at hf; omega)]
          rfl
    · intro p ct hp
      cases p with
      | zero =>
        simp only [List.getElem?_cons_zero, Option.some.injEq] at hp
        subst hp
        refine ⟨kv, rfl, ?_⟩
        unfold decodeCt
        have hu' : Stream.decrypt ⟨C, k, n⟩ box (pos + 0) = some msg := hu
        rw [hu']
        exact kvFromBytes_iff.2 (by rw [toKv_ofKv]; exact hk)
      | succ p =>
        obtain ⟨kv', h1, h2⟩ := e3 p ct (by simpa using hp)
        refine ⟨kv', by simpa using h1, ?_⟩
        rwa [show pos + (p + 1) = pos + 1 + p by omega]
    · intro ct hct
      simp only [List.mem_cons] at hct
      simp only [List.length_append, h4]
      rcases hct with rfl | hct
      · omega
      · have := e4 ct hct; omega

theorem sealedFile_boxes {C : Cipher} {k n : Bytes} {file : Bytes} {kvs : List Kv} (h : SealedFile (openSealed C k n) file kvs) :
    ∃ cts : List Bytes, cipherTexts file = some cts ∧ cts.length = kvs.length ∧
      (∀ p ct, cts[p]? = some ct → ∃ kv, kvs[p]? = some kv ∧ decodeCt ⟨C, k, n⟩ p ct = some (ofKv kv)) ∧
      ∀ ct ∈ cts, ct.length + 4 ≤ file.length := by
  obtain ⟨hdr, content, unused, rfl, h8, hnum, hs⟩ := h
  obtain ⟨cts, e1, e2, e3, e4⟩ := sealed_boxes hs
  rw [num_eq_beVal] at hnum
  refine ⟨cts, ?_, e1, fun p ct hp => by simpa using e3 p ct hp, fun ct hct => ?_⟩
  · unfold cipherTexts
    have ht : (hdr ++ (content ++ unused)).take 8 = hdr := by rw [List.take_append_of_le_length (by omega), List.take_of_length_le (by omega)]
    have hd : (hdr ++ (content ++ unused)).drop 8 = content ++ unused := by rw [List.drop_append_of_le_length (by omega), List.drop_of_length_le (by omega)]; rfl
    simp only [ht, hnum]
    rw [if_neg (by simp [h8]), hd, List.take_left' rfl]
    exact e2 _ (Nat.le_refl _)
  · have := e4 ct hct
    simp only [List.length_append]
    omega

theorem framed_ctFrames (S : Stream) : ∀ (cts : List Bytes) (pos : Nat), (∀ ct ∈ cts, ct.length + 4 < 2 ^ 32) →
    Framed (aeadCodec S) pos (cts.map ctFrame).flatten (cts.mapIdx fun n ct => decodeCt S (pos + n) ct)
  | [], pos, _ => .nil pos
  | ct :: cts, pos, h => by
    have h0 := h ct List.mem_cons_self
    have ih := framed_ctFrames S cts (pos + 1) fun c hc => h c (List.mem_cons_of_mem _ hc)
    rw [List.map_cons, List.flatten_cons, List.mapIdx_cons]
    refine .cons _ _ _ _ _ ?_ ?_ (by simpa only [Nat.add_assoc, Nat.add_comm 1] using ih)
    · intro h; have := congrArg List.length h; simp [ctFrame] at this
    · intro rest
      have ht : (ctFrame ct ++ rest).take 4 = beBytes 4 ct.length := by
        unfold ctFrame
        rw [List.append_assoc, List.take_left' (beBytes_length 4 _)]
      have hd : (ctFrame ct ++ rest).drop 4 = ct ++ rest := by
        unfold ctFrame
        rw [List.append_assoc, List.drop_left' (beBytes_length 4 _)]
      have hv : beVal (beBytes 4 ct.length) = ct.length := beVal_beBytes _ _ (by omega)
      have hlen : (ctFrame ct).length = 4 + ct.length := by simp [ctFrame]
      show aeadDec S (ctFrame ct ++ rest) pos = _
      rw [aeadDec_ok S pos (by simp; omega) (by rw [ht, hv]; simp; omega) (by rw [ht, hv]; omega), ht, hv, hd, List.take_left' rfl, hlen]
      rfl

theorem mutations_mix (mix : List (Option Kv)) :
    mutations (mix.map fun o => o.map ofKv) = (mix.filterMap id).map Spec.Format.mutation := by
  rw [← mutations_kvs]
  unfold mutations
  induction mix with
  | nil => rfl
  | cons o mix ih => cases o <;> simp_all

/-! ### C101 -/

/-- What can be done: any mix of the logs of files seen under the nonce. -/
theorem C101_mix_refuted (C : Cipher) {page : Nat} {key : String} {k nonce : Bytes} (hk : decodeKey key = some k) (h11 : nonce.length = 11)
    (hblank : ∀ p, C.decrypt k nonce p [] = none) (seen : List (Bytes × List Kv))
    (hseen : ∀ f ∈ seen, SealedFile (openSealed C k nonce) f.1 f.2 ∧ f.1.length < 2 ^ 31)
    (mix : List (Option Kv)) (hmix : Mixed (seen.map (·.2)) mix) (hlen : mix.length < 2 ^ 32) (rand : Bytes) :
    ∃ file, Tampered (seen.map (·.1)) file ∧
      ∃ s, openEnc C page key rand ⟨file, some nonce⟩ = some s ∧ s.Shows (contents (mix.filterMap id)) := by
  have hct : ∀ p : Nat, ∃ ct : Bytes, ct.length + 4 < 2 ^ 31 ∧ (ct = [] ∨ ∃ f ∈ seen.map (·.1), ∃ cs, cipherTexts f = some cs ∧ cs[p]? = some ct) ∧
      ∀ o, mix[p]? = some o → decodeCt ⟨C, k, nonce⟩ p ct = o.map ofKv := by
    intro p
    have hno : decodeCt ⟨C, k, nonce⟩ p [] = none := by
      unfold decodeCt Stream.decrypt
      simp only [hblank, ite_self]
    cases hp : mix[p]? with
    | none => exact ⟨[], by simp, .inl rfl, by simp⟩
    | some o =>
      cases o with
      | none => exact ⟨[], by simp, .inl rfl, by intro o ho; cases ho; simpa using hno⟩
      | some kv =>
        obtain ⟨log, hlog, hat⟩ := hmix p kv hp
        obtain ⟨f, hf, rfl⟩ := List.mem_map.1 hlog
        obtain ⟨hs, hl⟩ := hseen f hf
        obtain ⟨cts, e1, e2, e3, e4⟩ := sealedFile_boxes hs
        have hlt : p < cts.length := by
          rw [e2]
          exact (List.getElem?_eq_some_iff.1 hat).1
        obtain ⟨kv', h1, h2⟩ := e3 p cts[p] (List.getElem?_eq_getElem hlt)
        rw [hat] at h1
        cases h1
        have := e4 cts[p] (List.getElem_mem _)
        exact ⟨cts[p], by omega, .inr ⟨f.1, List.mem_map_of_mem hf, cts, e1, List.getElem?_eq_getElem hlt⟩, by intro o ho; cases ho; exact h2⟩
  choose ct c1 c2 c3 using hct
  let cts := (List.range mix.length).map ct
  have hget : ∀ p x, cts[p]? = some x → x = ct p := by
    intro p x hx
    simp only [cts, List.getElem?_map, Option.map_eq_some_iff] at hx
    obtain ⟨q, hq, rfl⟩ := hx
    rw [List.getElem?_eq_some_iff] at hq
    obtain ⟨_, hq⟩ := hq
    simp at hq
    rw [hq]
  have hsmall : ∀ x ∈ cts, x.length + 4 < 2 ^ 31 := by
    intro x hx
    obtain ⟨q, _, rfl⟩ := List.mem_map.1 hx
    exact c1 q
  have htot : ∀ l : List Bytes, (∀ x ∈ l, x.length + 4 < 2 ^ 31) → (l.map ctFrame).flatten.length ≤ l.length * 2 ^ 31 := by
    intro l
    induction l with
    | nil => intro _; simp
    | cons x l ih =>
      intro h
      have h1 := ih fun y hy => h y (List.mem_cons_of_mem _ hy)
      have h2 := h x List.mem_cons_self
      have h3 : (ctFrame x).length = 4 + x.length := by simp [ctFrame]
      simp only [List.map_cons, List.flatten_cons, List.length_append, List.length_cons, h3]
      omega
  have hitems : (cts.mapIdx fun n ct => decodeCt ⟨C, k, nonce⟩ (0 + n) ct) = mix.map fun o => o.map ofKv := by
    apply List.ext_getElem?
    intro p
    simp only [List.getElem?_mapIdx, List.getElem?_map, cts, Nat.zero_add]
    by_cases hp : p < mix.length
    · rw [List.getElem?_range hp]
      have hm := List.getElem?_eq_getElem hp
      simp only [Option.map_some, hm]
      rw [c3 p _ hm]
    · rw [List.getElem?_eq_none (by simpa using hp), List.getElem?_eq_none (by omega)]
      rfl
  have hf := framed_ctFrames ⟨C, k, nonce⟩ cts 0 (fun x hx => by have := hsmall x hx; omega)
  rw [hitems] at hf
  have hb := htot cts hsmall
  have hcl : cts.length = mix.length := by simp [cts]
  have hh : Holds (fileOf (cts.map ctFrame) []) (cts.map ctFrame).flatten := by
    refine ⟨?_, [], rfl⟩
    rw [hcl] at hb
    omega
  obtain ⟨s, hs, hsh⟩ := openEnc_sealed (page := page) (rand := rand) hk h11 hh hf
  rw [mutations_mix] at hsh
  exact ⟨_, ⟨cts, [], rfl, fun p x hx => by rw [hget p x hx]; exact c2 p⟩, s, hs, hsh⟩

/-- What somebody without the key puts together is not forged. -/
theorem tampered_notForged (C : Cipher) {k nonce : Bytes} (hblank : ∀ p, C.decrypt k nonce p [] = none) {seen : List Bytes} {file : Bytes}
    (hlen : file.length < 2 ^ 32) (h : Tampered seen file) : NotForged C k nonce seen file := by
  obtain ⟨cts, slack, rfl, hcts⟩ := h
  have hl : (cts.map ctFrame).flatten.length + 8 ≤ (fileOf (cts.map ctFrame) slack).length := by unfold fileOf; simp; omega
  have hsm : ∀ ct ∈ cts, ct.length + 4 < 2 ^ 32 := by
    intro ct hct
    have h1 : (ctFrame ct).length ≤ (cts.map ctFrame).flatten.length := by
      rw [List.length_flatten]
      exact List.le_sum_of_mem (List.mem_map_of_mem (List.mem_map_of_mem hct))
    have h3 : (ctFrame ct).length = 4 + ct.length := by simp [ctFrame]
    omega
  have hf := framed_ctFrames ⟨C, k, nonce⟩ cts 0 hsm
  have hh : Holds (fileOf (cts.map ctFrame) slack) (cts.map ctFrame).flatten := ⟨by omega, slack, rfl⟩
  have hfr : ∀ (l : List Bytes), (∀ ct ∈ l, ct.length + 4 < 2 ^ 32) → ∀ fuel, (l.map ctFrame).flatten.length ≤ fuel → cipherFrames fuel (l.map ctFrame).flatten = some l := by
    intro l
    induction l with
    | nil => intro _ fuel _; cases fuel <;> rfl
    | cons x l ih =>
      intro hx fuel hfu
      have h0 := hx x List.mem_cons_self
      have hlx : (ctFrame x).length = 4 + x.length := by simp [ctFrame]
      rw [List.map_cons, List.flatten_cons] at hfu ⊢
      simp only [List.length_append, hlx] at hfu
      cases hcc : ctFrame x ++ (l.map ctFrame).flatten with
      | nil => have := congrArg List.length hcc; simp [hlx] at this
      | cons b bs =>
        cases fuel with
        | zero => omega
        | succ fuel =>
          have ht : (ctFrame x ++ (l.map ctFrame).flatten).take 4 = beBytes 4 x.length := by
            unfold ctFrame
            rw [List.append_assoc, List.take_left' (beBytes_length 4 _)]
          have hd : (ctFrame x ++ (l.map ctFrame).flatten).drop 4 = x ++ (l.map ctFrame).flatten := by
            conv_lhs => rw [show ctFrame x = beBytes 4 x.length ++ x from rfl]
            rw [List.append_assoc, List.drop_left' (beBytes_length 4 _)]
          unfold cipherFrames
          rw [← hcc]
          simp only [ht, beVal_beBytes _ _ (show x.length < 256 ^ 4 by omega)]
          rw [if_neg (by simp [hlx]), ← List.drop_drop, hd, List.take_left' rfl, List.drop_left' rfl,
            ih (fun c hc => hx c (List.mem_cons_of_mem _ hc)) fuel (by omega)]
          rfl
  have hct : cipherTexts (fileOf (cts.map ctFrame) slack) = some cts := by
    have hb := hh.body
    unfold cipherTexts
    rw [hh.header]
    simp only []
    have := hh.len
    rw [List.drop_take, Nat.add_sub_cancel] at hb
    rw [if_neg (by omega), hb]
    exact hfr cts hsm _ (Nat.le_refl _)
  intro cts' hc' p ct hp hd
  rw [hct] at hc'
  cases hc'
  rcases hcts p ct hp with rfl | h
  · exact absurd (hblank p) hd
  · exact h

theorem cipherTexts_empty_page {page : Nat} (h8 : 8 ≤ page) : cipherTexts (configNew page []) = some [] := by
  unfold configNew cipherTexts
  simp only [List.length_nil, if_true, zeros]
  have : beVal ((List.replicate page (0 : UInt8)).take 8) = 0 := by
    rw [List.take_replicate, Nat.min_eq_left h8]; rfl
  rw [this, if_neg (by simp; omega)]
  simp [cipherFrames]

/-- **C101**, what is true: a file none of whose records is forged, put in place of the data file, shows - if it opens - a mix of the
logs of the files seen before under that nonce. -/
theorem C101_partial (C : Cipher) {page : Nat} (h8 : 8 ≤ page) {key : String} {k nonce rand : Bytes} (hk : decodeKey key = some k)
    (h11 : nonce.length = 11) (seen : List (Bytes × List Kv)) (hseen : ∀ f ∈ seen, SealedFile (openSealed C k nonce) f.1 f.2)
    {file : Bytes} (hnf : NotForged C k nonce (seen.map (·.1)) file) {s : Inst (Bytes × Bytes)}
    (ho : openEnc C page key rand ⟨file, some nonce⟩ = some s) :
    ∃ mix, Mixed (seen.map (·.2)) mix ∧ s.Shows (contents (mix.filterMap id)) := by
  rw [openEnc_eq hk] at ho
  simp only [initNonce, nonceLen, h11, if_true] at ho
  obtain ⟨cts, hc, s', ho', hkv⟩ := opens_under_any (j := (k, nonce)) ho
  rw [ho] at ho'
  cases ho'
  have hnf' : ∀ p ct, cts[p]? = some ct → C.decrypt k nonce p ct ≠ none → ∃ f ∈ seen.map (·.1), ∃ cs, cipherTexts f = some cs ∧ cs[p]? = some ct := by
    by_cases hfile : file = []
    · subst hfile
      rw [cipherTexts_empty_page h8] at hc
      cases hc
      simp
    · have : configNew page file = file := by
        unfold configNew
        rw [if_neg (by simpa using hfile)]
      rw [this] at hc
      exact hnf cts hc
  refine ⟨cts.mapIdx fun n ct => (decodeCt ⟨C, k, nonce⟩ n ct).map toKv, ?_, ?_⟩
  · intro p kv hp
    simp only [List.getElem?_mapIdx, Option.map_eq_some_iff] at hp
    obtain ⟨ct, hct, b, hb, rfl⟩ := hp
    have hd : C.decrypt k nonce p ct ≠ none := by
      intro hd
      unfold decodeCt Stream.decrypt at hb
      simp only [hd, ite_self] at hb
      cases hb
    obtain ⟨g, hg, cs, hcs, hat⟩ := hnf' p ct hct hd
    obtain ⟨f, hf, rfl⟩ := List.mem_map.1 hg
    obtain ⟨cts', e1, _, e3, _⟩ := sealedFile_boxes (hseen f hf)
    rw [hcs] at e1
    cases e1
    obtain ⟨kv', h1, h2⟩ := e3 p ct hat
    rw [hb] at h2
    cases h2
    exact ⟨f.2, List.mem_map_of_mem hf, by rw [h1, toKv_ofKv]⟩
  · have hv : view s.kv = contents ((cts.mapIdx fun n ct => (decodeCt ⟨C, k, nonce⟩ n ct).map toKv).filterMap id) := by
      rw [hkv, view_intoMap]
      unfold contents
      rw [← mutations_mix]
      congr 2
      apply List.ext_getElem?
      intro p
      simp only [List.getElem?_mapIdx, List.getElem?_map, Option.map_map]
      congr 1
      funext ct
      simp only [Function.comp]
      cases decodeCt ⟨C, k, nonce⟩ p ct <;> rfl
    exact shows_of_view ho hv

theorem mix_sublist {log : List Kv} {mix : List (Option Kv)} (h : ∀ (p : Nat) (kv : Kv), mix[p]? = some (some kv) → log[p]? = some kv) :
    (mix.filterMap id).Sublist log := by
  induction mix generalizing log with
  | nil => simp
  | cons o mix ih =>
    cases log with
    | nil =>
      have : ∀ x ∈ o :: mix, x = none := by
        intro x hx
        obtain ⟨p, hp⟩ := List.getElem?_of_mem hx
        cases x with
        | none => rfl
        | some kv => exact absurd (h p kv hp) (by simp)
      rw [show (o :: mix).filterMap id = [] from List.filterMap_eq_nil_iff.2 this]
    | cons kv log =>
      have ih' := ih (log := log) fun p kv hp => by simpa using h (p + 1) kv (by simpa using hp)
      cases o with
      | none => simpa using ih'.cons kv
      | some kv' =>
        have := h 0 kv' rfl
        simp only [List.getElem?_cons_zero, Option.some.injEq] at this
        subst this
        simpa using ih'

/-- **C101**, one log: if all the files seen are first parts of one log - as long as the store has not been compacted or cleared - all
that can be done is to leave out records of it. -/
theorem C101_one_log_partial (C : Cipher) {page : Nat} (h8 : 8 ≤ page) {key : String} {k nonce rand : Bytes} (hk : decodeKey key = some k)
    (h11 : nonce.length = 11) (seen : List (Bytes × List Kv)) (hseen : ∀ f ∈ seen, SealedFile (openSealed C k nonce) f.1 f.2)
    {log : List Kv} (hlog : ∀ f ∈ seen, f.2 <+: log)
    {file : Bytes} (hnf : NotForged C k nonce (seen.map (·.1)) file) {s : Inst (Bytes × Bytes)}
    (ho : openEnc C page key rand ⟨file, some nonce⟩ = some s) :
    ∃ left, left.Sublist log ∧ s.Shows (contents left) := by
  obtain ⟨mix, hm, hsh⟩ := C101_partial C h8 hk h11 seen hseen hnf ho
  refine ⟨_, mix_sublist fun p kv hp => ?_, hsh⟩
  obtain ⟨l, hl, hat⟩ := hm p kv hp
  obtain ⟨f, hf, rfl⟩ := List.mem_map.1 hl
  obtain ⟨t, ht⟩ := hlog f hf
  rw [← ht, List.getElem?_append_left (List.getElem?_eq_some_iff.1 hat).1, hat]

theorem contents_origin {kvs : List Kv} {key : String} {e : Entry} (h : contents kvs key = some e) :
    ∃ kv ∈ kvs, kv.key = key ∧ kv.type = e.token ∧ kv.value = e.bytes := by
  unfold contents at h
  induction kvs using List.reverseRecOn with
  | nil => cases h
  | append_singleton kvs kv ih =>
    simp only [List.map_append, List.map_cons, List.map_nil, Store.run, List.foldl_append, List.foldl_cons, List.foldl_nil] at h ih
    by_cases ht : kv.type = 100
    · simp only [Spec.Format.mutation, ht, if_true, Store.apply] at h
      split at h
      · cases h
      · obtain ⟨kv', h1, h2⟩ := ih h
        exact ⟨kv', by simp [h1], h2⟩
    · simp only [Spec.Format.mutation, ht, if_false, Store.apply] at h
      split at h
      · rename_i hkey
        cases h
        exact ⟨kv, by simp, hkey.symm, rfl, rfl⟩
      · obtain ⟨kv', h1, h2⟩ := ih h
        exact ⟨kv', by simp [h1], h2⟩

/-- **C101**, values: whatever such a file shows under a key was written under that key before, with that type. -/
theorem C101_values_partial (C : Cipher) {page : Nat} (h8 : 8 ≤ page) {key : String} {k nonce rand : Bytes} (hk : decodeKey key = some k)
    (h11 : nonce.length = 11) (seen : List (Bytes × List Kv)) (hseen : ∀ f ∈ seen, SealedFile (openSealed C k nonce) f.1 f.2)
    {file : Bytes} (hnf : NotForged C k nonce (seen.map (·.1)) file) {s : Inst (Bytes × Bytes)}
    (ho : openEnc C page key rand ⟨file, some nonce⟩ = some s) (name : String) (token : BitVec 32) (bs : Bytes)
    (hget : s.getAs name token Out.ok = .ok bs) :
    ∃ f ∈ seen, ∃ kv ∈ f.2, kv.key = name ∧ kv.type = token ∧ kv.value = bs := by
  obtain ⟨mix, hm, hsh⟩ := C101_partial C h8 hk h11 seen hseen hnf ho
  rw [hsh] at hget
  unfold Store.lookup at hget
  split at hget
  · cases hget
  · rename_i e he
    split at hget
    · rename_i ht
      cases hget
      obtain ⟨kv, hkv, h1, h2, h3⟩ := contents_origin he
      obtain ⟨o, ho, rfl⟩ := List.mem_filterMap.1 hkv
      obtain ⟨p, hp⟩ := List.getElem?_of_mem ho
      obtain ⟨l, hl, hat⟩ := hm p kv hp
      obtain ⟨f, hf, rfl⟩ := List.mem_map.1 hl
      exact ⟨f, hf, kv, List.mem_of_getElem? hat, h1, by rw [h2, ht], h3⟩
    · cases hget

/-- **C101 does not hold**, in general: whatever sessions an encrypted store has gone through, any of the records of its file can be left
out by someone without the key, and the rest is shown as if nothing were wrong. -/
theorem C101_drop_refuted (C : Cipher) {page : Nat} (h8 : 8 ≤ page) (h32 : page < 2 ^ 32) {key : String} {k : Bytes}
    (hk : decodeKey key = some k) (hblank : ∀ n p, C.decrypt k n p [] = none)
    {xs : List EncSession} {rss : List (List (Out Unit))} {d : EncDir}
    (hl : EncLife C page EncDir.fresh xs rss d) (hs : SameKey key k page xs)
    (hroom : page * encCallCount xs + 8 < 2 ^ 64) (hctr : encCallCount xs < 2 ^ 32 - 1) (hne : d.file ≠ []) (hsz : d.file.length < 2 ^ 31) :
    ∃ S kvs, Survives Store.empty (encCalls xs) S ∧ contents kvs = S ∧
      ∀ (leave : List Bool) (rand : Bytes), leave.length = kvs.length → ∃ file, Tampered [d.file] file ∧
        ∃ s, openEnc C page key rand ⟨file, d.nonceFile⟩ = some s ∧
          s.Shows (contents (((kvs.zip leave).filter (·.2)).map (·.1))) := by
  obtain ⟨S, hS, h | ⟨nonce, kvs, hn, h11, hf, hc⟩⟩ := C80_encrypted C h8 h32 hk hl hs hroom hctr
  · exact absurd h.1 hne
  refine ⟨S, kvs, hS, hc, fun leave rand hlen => ?_⟩
  have hboxes := sealedFile_boxes hf
  obtain ⟨cts, e1, e2, e3, e4⟩ := hboxes
  have hkl : kvs.length < 2 ^ 32 := by
    obtain ⟨hdr, content, unused, e, g8, gn, hsd⟩ := hf
    have hb : ∀ {pos : Nat} {c : Bytes} {l : List Kv}, Sealed (openSealed C k nonce) pos c l → l.length ≤ c.length := by
      intro pos c l h
      induction h with
      | nil => simp
      | cons h4 => simp only [List.length_cons, List.length_append]; omega
    have := hb hsd
    rw [e] at hsz
    simp only [List.length_append] at hsz
    omega
  obtain ⟨file, ht, s, hos, hsh⟩ := C101_mix_refuted C (page := page) hk h11 (fun p => hblank nonce p) [(d.file, kvs)]
    (by simpa using ⟨hf, hsz⟩) ((kvs.zip leave).map fun x => if x.2 then some x.1 else none) (by
      intro p kv hp
      simp only [List.getElem?_map, Option.map_eq_some_iff] at hp
      obtain ⟨⟨kv', b⟩, hx, hb⟩ := hp
      simp only at hb
      split at hb
      · cases hb
        exact ⟨kvs, by simp, (List.getElem?_zip_eq_some.1 hx).1⟩
      · cases hb) (by simp; omega) rand
  rw [hn]
  refine ⟨file, by simpa using ht, s, hos, ?_⟩
  have hfil : ∀ l : List (Kv × Bool), (l.map fun x => if x.2 then some x.1 else none).filterMap id = (l.filter (·.2)).map (·.1) := by
    intro l
    induction l with
    | nil => rfl
    | cons x l ih => obtain ⟨kv, b⟩ := x; cases b <;> simp_all
  rw [hfil] at hsh
  exact hsh

/-! ### It happens -/

/-- One session: `a` is put, 30 bytes of 7. -/
def tamperFirst : EncSession :=
  { key := testKey, rand := nonce1, clean := true, evs := encPut (testKeyBytes, nonce1) "a" 1 (List.replicate 30 7) ++ encClose }
/-- The next one puts `a`, 30 bytes of 8, and `b`: with 80-byte pages the put of `a` compacts the file, so its record and that of `b` are sealed under the nonce and
positions used before. -/
def tamperSecond : EncSession :=
  { key := testKey, rand := nonce1, clean := true, evs := encPut (testKeyBytes, nonce1) "a" 1 (List.replicate 30 8) ++
      encPut (testKeyBytes, nonce1) "b" 0 [0, 0, 0, 1] ++ encClose }

/-- The file put together from what the two sessions leave: the first record of the older file, the second of the newer one. -/
def spliced (f1 f2 : Bytes) : Bytes :=
  fileOf ([((cipherTexts f1).getD []).getD 0 [], ((cipherTexts f2).getD []).getD 1 []].map ctFrame) []

theorem tamper_demo : ∃ rss1 d1 rss2 d2 s, EncLife toy 80 EncDir.fresh [tamperFirst] rss1 d1 ∧ EncLife toy 80 d1 [tamperSecond] rss2 d2 ∧
    rss1 = [[.ok ()]] ∧ rss2 = [[.ok (), .ok ()]] ∧ d1.nonceFile = some nonce1 ∧ d2.nonceFile = some nonce1 ∧ d1.file ≠ [] ∧ d2.file ≠ [] ∧
    (spliced d1.file d2.file).length < 2 ^ 32 ∧
    Tampered [d1.file, d2.file] (spliced d1.file d2.file) ∧ openEnc toy 80 testKey [] ⟨spliced d1.file d2.file, d2.nonceFile⟩ = some s ∧
    s.getAs "a" 1 Out.ok = .ok (List.replicate 30 7) ∧ s.getAs "b" 0 Out.ok = .ok [0, 0, 0, 1] := by
  have h1 : (encLifeRun toy 80 EncDir.fresh [tamperFirst]).isSome = true := by decide +kernel
  obtain ⟨⟨rss1, d1⟩, e1⟩ := Option.isSome_iff_exists.1 h1
  have h2 : ((encLifeRun toy 80 EncDir.fresh [tamperFirst]).bind fun p => encLifeRun toy 80 p.2 [tamperSecond]).isSome = true := by decide +kernel
  rw [e1] at h2
  obtain ⟨⟨rss2, d2⟩, e2⟩ := Option.isSome_iff_exists.1 h2
  simp only [Option.bind_some] at e2
  have h3 : ((encLifeRun toy 80 EncDir.fresh [tamperFirst]).bind fun p => (encLifeRun toy 80 p.2 [tamperSecond]).bind fun q =>
      (openEnc toy 80 testKey [] ⟨spliced p.2.file q.2.file, q.2.nonceFile⟩).map fun s =>
        decide (p.1 = [[.ok ()]] ∧ q.1 = [[.ok (), .ok ()]] ∧ p.2.nonceFile = some nonce1 ∧ q.2.nonceFile = some nonce1 ∧
          p.2.file ≠ [] ∧ q.2.file ≠ [] ∧ (spliced p.2.file q.2.file).length < 2 ^ 32 ∧
          s.getAs "a" 1 Out.ok = .ok (List.replicate 30 7) ∧ s.getAs "b" 0 Out.ok = .ok [0, 0, 0, 1] ∧
          (cipherTexts p.2.file).map List.length = some 1 ∧ (cipherTexts q.2.file).map List.length = some 2)) = some true := by decide +kernel
  simp only [e1, e2, Option.bind_some, Option.map_eq_some_iff, decide_eq_true_eq] at h3
  obtain ⟨s, hs, g1, g2, g3, g3', gn1, gn2, gl, g4, g5, ⟨c1, k1, l1⟩, ⟨c2, k2, l2⟩⟩ := h3
  refine ⟨rss1, d1, rss2, d2, s, encLife_of_run _ _ _ _ e1, encLife_of_run _ _ _ _ e2, g1, g2, g3, g3', gn1, gn2, gl, ?_, hs, g4, g5⟩
  refine ⟨_, [], rfl, fun p ct hp => .inr ?_⟩
  rw [k1, k2] at hp
  simp only [Option.getD_some] at hp
  match p, hp with
  | 0, hp =>
    cases hp
    exact ⟨d1.file, by simp, c1, k1, by rw [List.getD_eq_getElem?_getD, List.getElem?_eq_getElem (by omega)]; rfl⟩
  | 1, hp =>
    cases hp
    exact ⟨d2.file, by simp, c2, k2, by rw [List.getD_eq_getElem?_getD, List.getElem?_eq_getElem (by omega)]; rfl⟩

/-- **C101 does not hold**: someone who has seen the data file twice - with a compaction in between, and without knowing the key - can
make the store show a combination of values it has never held: `a` as it was before `b` existed, together with `b`. -/
theorem C101_refuted : ∃ rss1 d1 rss2 d2 file s, EncLife toy 80 EncDir.fresh [tamperFirst] rss1 d1 ∧ EncLife toy 80 d1 [tamperSecond] rss2 d2 ∧
    rss1 = [[.ok ()]] ∧ rss2 = [[.ok (), .ok ()]] ∧
    Tampered [d1.file, d2.file] file ∧ openEnc toy 80 testKey [] ⟨file, d2.nonceFile⟩ = some s ∧
    s.getAs "a" 1 Out.ok = .ok (List.replicate 30 7) ∧ s.getAs "b" 0 Out.ok = .ok [0, 0, 0, 1] ∧
    ∀ n, ¬ (Store.lookup (Store.empty.run ((calls tamperFirst.evs ++ calls tamperSecond.evs).take n)) "a" 1 Out.ok = .ok (List.replicate 30 7) ∧
      Store.lookup (Store.empty.run ((calls tamperFirst.evs ++ calls tamperSecond.evs).take n)) "b" 0 Out.ok = .ok [0, 0, 0, 1]) := by
  obtain ⟨rss1, d1, rss2, d2, s, l1, l2, g1, g2, _, _, _, _, _, ht, hs, ha, hb⟩ := tamper_demo
  refine ⟨rss1, d1, rss2, d2, _, s, l1, l2, g1, g2, ht, hs, ha, hb, ?_⟩
  have hc : calls tamperFirst.evs ++ calls tamperSecond.evs =
      [.put "a" ⟨1, List.replicate 30 7⟩, .put "a" ⟨1, List.replicate 30 8⟩, .put "b" ⟨0, [0, 0, 0, 1]⟩] := by decide +kernel
  rw [hc]
  intro n
  match n with
  | 0 => decide +kernel
  | 1 => decide +kernel
  | 2 => decide +kernel
  | n + 3 => rw [List.take_of_length_le (by simp)]; decide +kernel

theorem toy_blank (k n : Bytes) (p : Nat) : toy.decrypt k n p [] = none := by
  have h : toyTag k n p ≠ [] := by intro h; have := congrArg List.length h; simp [toyTag] at this
  simp [toy, h.symm]

/-- These sessions and files meet the hypotheses of the theorems above: the files follow the format, the spliced file is not forged and opens. -/
example : ∃ (seen : List (Bytes × List Kv)) (file : Bytes), seen.length = 2 ∧ (∀ f ∈ seen, SealedFile (openSealed toy testKeyBytes nonce1) f.1 f.2) ∧
    NotForged toy testKeyBytes nonce1 (seen.map (·.1)) file ∧ (openEnc toy 80 testKey [] ⟨file, some nonce1⟩).isSome := by
  obtain ⟨rss1, d1, rss2, d2, s, l1, l2, _, _, n1, n2, f1, f2, hl, ht, hs, _, _⟩ := tamper_demo
  have hput : ∀ k t bs, (kvToBytes ⟨k, t, bs⟩).length ≤ 68 → (Ev.put k t bs).EncFits testKeyBytes 80 := by
    intro k t bs h; simp only [Ev.EncFits, encRecordSize]; omega
  have hk2 : SameKey testKey testKeyBytes 80 [tamperFirst, tamperSecond] := by
    refine ⟨by simp [tamperFirst, tamperSecond], by simp [tamperFirst, tamperSecond, nonce1, nonceLen], ?_⟩
    intro x hx e he
    simp only [tamperFirst, tamperSecond, encPut, encClose, List.cons_append, List.nil_append, List.mem_cons, List.not_mem_nil, or_false] at hx
    rcases hx with rfl | rfl <;>
    · simp only [List.mem_cons, List.not_mem_nil, or_false] at he
      repeat' rcases he with rfl | he
      all_goals first
        | trivial
        | exact ⟨rfl, rfl⟩
        | (apply hput; decide +kernel)
        | exact fun l => List.reverse_perm l
        | exact fun l => List.Perm.refl l
  have hk1 : SameKey testKey testKeyBytes 80 [tamperFirst] :=
    ⟨fun x hx => hk2.1 x (by simp at hx; simp [hx]), fun x hx => hk2.2 x (by simp at hx; simp [hx]), fun x hx => hk2.3 x (by simp at hx; simp [hx])⟩
  have l12 : EncLife toy 80 EncDir.fresh [tamperFirst, tamperSecond] (rss1 ++ rss2) d2 := by
    cases l1 with
    | cons ho hr hc rest => cases rest; exact .cons ho hr hc l2
  obtain ⟨_, _, h | ⟨m1, kvs1, e1, _, hf1, _⟩⟩ := C80_encrypted toy (by decide) (by decide) decode_testKey l1 hk1 (by decide +kernel) (by decide +kernel)
  · exact absurd h.1 f1
  obtain ⟨_, _, h | ⟨m2, kvs2, e2, _, hf2, _⟩⟩ := C80_encrypted toy (by decide) (by decide) decode_testKey l12 hk2 (by decide +kernel) (by decide +kernel)
  · exact absurd h.1 f2
  rw [n1] at e1
  rw [n2] at e2
  cases e1
  cases e2
  refine ⟨[(d1.file, kvs1), (d2.file, kvs2)], spliced d1.file d2.file, rfl, by simpa using ⟨hf1, hf2⟩,
    tampered_notForged toy (toy_blank _ _) hl (by simpa using ht), ?_⟩
  rw [← n2, hs]
  rfl

end Mmkv
