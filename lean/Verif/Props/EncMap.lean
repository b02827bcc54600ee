import Verif.Props.EncLife3
import Verif.Props.CrashEnc
/-!
# The laws of the map and the damage of a file, with encryption

C02, C03, C04, C05, C26, C32 and C44 after closing and reopening an encrypted store, C32 after reopening a plain one, and C20 and C21 for encrypted
data files.
-/

namespace Mmkv
open Spec Inst Spec.Store

/-- All mutating calls of some encrypted sessions, in order. -/
def encAllCalls (xs : List EncSession) : List Mutation := (xs.map fun x => calls x.evs).flatten

section
variable (C : Cipher) {page : Nat} (h8 : 8 ≤ page) (h32 : page < 2 ^ 32) {key : String} {kb : Bytes} (hkey : decodeKey key = some kb)
  {xs : List EncSession} {rss : List (List (Out Unit))} {d : EncDir}
  (hl : EncLife C page EncDir.fresh xs rss d) (hs : SameKey key kb page xs) (hclean : ∀ x ∈ xs, x.clean = true)
  (hroom : page * encCallCount xs + 8 < 2 ^ 64) (hctr : encCallCount xs < 2 ^ 32 - 1) (rand : Bytes)
include h8 h32 hkey hl hs hclean hroom hctr

/-- **C02, C03** with encryption: a value put at a built-in type in some session, and not touched since, is read back by the next `new`
with the same key exactly at that type, and is a type mismatch at every other. -/
theorem C02_encrypted_reopen {k : String} {t : Ty} {v : t.Val} {pre post : List Mutation}
    (hcalls : encAllCalls xs = pre ++ [.put k ⟨t.token, toBytes t v⟩] ++ post) (hk : ∀ m ∈ post, Leaves k m) :
    ∃ s, openEnc C page key rand d = some s ∧ s.get k t = .ok v ∧ ∀ t', t' ≠ t → s.get k t' = .err .typeMissMatch := by
  obtain ⟨s, ho, hsh⟩ := C23_close_reopen C h8 h32 hkey hl hs hclean hroom hctr rand
  have key : ∀ (α : Type) (token : BitVec 32) (f : Bytes → Out α),
      s.getAs k token f = if token = t.token then f (toBytes t v) else .err .typeMissMatch := by
    intro α token f
    rw [hsh α k token f, show (xs.map fun x => calls x.evs).flatten = _ from hcalls, run_append, lookup_leaves _ _ _ hk, run_append]
    exact lookup_put_same _ k ⟨t.token, toBytes t v⟩ token f
  refine ⟨s, ho, ?_, ?_⟩
  · unfold Inst.get; rw [key, if_pos rfl]; exact fromBytes_toBytes t v
  · intro t' ht
    unfold Inst.get
    rw [key, if_neg (fun h => ht (token_injective h))]

/-- **C04** with encryption: a key deleted in some session and not put since is not found by the next `new`. -/
theorem C04_encrypted_reopen {α : Type} {k : String} {pre post : List Mutation}
    (hcalls : encAllCalls xs = pre ++ [.delete k] ++ post) (hk : ∀ e, Mutation.put k e ∉ post) (token : BitVec 32) (f : Bytes → Out α) :
    ∃ s, openEnc C page key rand d = some s ∧ s.getAs k token f = .err .keyNotFound := by
  obtain ⟨s, ho, hsh⟩ := C23_close_reopen C h8 h32 hkey hl hs hclean hroom hctr rand
  refine ⟨s, ho, ?_⟩
  rw [hsh α k token f, show (xs.map fun x => calls x.evs).flatten = _ from hcalls, run_append]
  unfold Store.lookup
  rw [run_noPut post _ (by rw [run_append]; simp [Store.run, Store.apply]) hk]

/-- **C32** with encryption: a value of a custom type is read back by the next `new` whenever its own conversions round-trip, and at no
built-in type. -/
theorem C32_encrypted_reopen {α : Type} {k : String} {token : BitVec 32} (htok : typeTokenNew token = .ok token)
    (toB : α → Bytes) (fromB : Bytes → Out α) (v : α) (hrt : fromB (toB v) = .ok v) {pre post : List Mutation}
    (hcalls : encAllCalls xs = pre ++ [.put k ⟨token, toB v⟩] ++ post) (hk : ∀ m ∈ post, Leaves k m) :
    ∃ s, openEnc C page key rand d = some s ∧ s.getAs k token fromB = .ok v ∧ ∀ ty : Ty, s.get k ty = .err .typeMissMatch := by
  obtain ⟨s, ho, hsh⟩ := C23_close_reopen C h8 h32 hkey hl hs hclean hroom hctr rand
  have key : ∀ (β : Type) (token' : BitVec 32) (f : Bytes → Out β),
      s.getAs k token' f = if token' = token then f (toB v) else .err .typeMissMatch := by
    intro β token' f
    rw [hsh β k token' f, show (xs.map fun x => calls x.evs).flatten = _ from hcalls, run_append, lookup_leaves _ _ _ hk, run_append]
    exact lookup_put_same _ k ⟨token, toB v⟩ token' f
  refine ⟨s, ho, by rw [key, if_pos rfl, hrt], ?_⟩
  intro ty
  unfold Inst.get
  rw [key, if_neg (fun h => (C32_separate token htok ty).1 h.symm)]

/-- **C26** with encryption: after a `clear_data` in the last session, the next `new` sees exactly what was done after it. -/
theorem C26_encrypted_reopen {pre post : List Mutation} (hcalls : encAllCalls xs = pre ++ [.clear] ++ post) :
    ∃ s, openEnc C page key rand d = some s ∧ s.Shows (Store.empty.run post) := by
  obtain ⟨s, ho, hsh⟩ := C23_close_reopen C h8 h32 hkey hl hs hclean hroom hctr rand
  rw [show (xs.map fun x => calls x.evs).flatten = _ from hcalls, run_after_clear] at hsh
  exact ⟨s, ho, hsh⟩

end

/-- **C05** with encryption: sessions that never touch `k` do not change what a get of `k` returns after the next `new`. -/
theorem C05_encrypted_reopen {α : Type} (C : Cipher) {page : Nat} (h8 : 8 ≤ page) (h32 : page < 2 ^ 32) {key : String} {kb : Bytes}
    (hkey : decodeKey key = some kb) {xs ys : List EncSession} {rss rss' : List (List (Out Unit))} {d d' : EncDir}
    (hl : EncLife C page EncDir.fresh xs rss d) (hl' : EncLife C page EncDir.fresh (xs ++ ys) rss' d')
    (hs : SameKey key kb page (xs ++ ys)) (hclean : ∀ x ∈ xs ++ ys, x.clean = true)
    (hroom : page * encCallCount (xs ++ ys) + 8 < 2 ^ 64) (hctr : encCallCount (xs ++ ys) < 2 ^ 32 - 1)
    {k : String} (hk : ∀ m ∈ encAllCalls ys, Leaves k m) (rand : Bytes) (token : BitVec 32) (f : Bytes → Out α) :
    ∃ s s', openEnc C page key rand d = some s ∧ openEnc C page key rand d' = some s' ∧
      s'.getAs k token f = s.getAs k token f := by
  have hle : encCallCount xs ≤ encCallCount (xs ++ ys) := by simp [encCallCount]
  have := Nat.mul_le_mul_left page hle
  obtain ⟨s, ho, hsh⟩ := C23_close_reopen C h8 h32 hkey hl
    ⟨fun x hx => hs.key x (List.mem_append_left _ hx), fun x hx => hs.rand x (List.mem_append_left _ hx),
      fun x hx => hs.fits x (List.mem_append_left _ hx)⟩
    (fun x hx => hclean x (List.mem_append_left _ hx)) (by omega) (by omega) rand
  obtain ⟨s', ho', hsh'⟩ := C23_close_reopen C h8 h32 hkey hl' hs hclean hroom hctr rand
  refine ⟨s, s', ho, ho', ?_⟩
  have : ((xs ++ ys).map fun x => calls x.evs).flatten = (xs.map fun x => calls x.evs).flatten ++ encAllCalls ys := by simp [encAllCalls]
  rw [hsh α k token f, hsh' α k token f, this, run_append, lookup_leaves _ _ _ hk]

/-- **C44** with encryption: two lives whose calls differ by swapping two adjacent mutations of different keys cannot be told apart by any
get after the next `new`; nor can they by the keys, nonces and page sizes they used. -/
theorem C44_encrypted_reopen {α : Type} (C C' : Cipher) {page page' : Nat} (h8 : 8 ≤ page) (h32 : page < 2 ^ 32) (h8' : 8 ≤ page')
    (h32' : page' < 2 ^ 32) {key key' : String} {kb kb' : Bytes}
    (hkey : decodeKey key = some kb) (hkey' : decodeKey key' = some kb') {xs ys : List EncSession} {rss rss' : List (List (Out Unit))}
    {d d' : EncDir} (hl : EncLife C page EncDir.fresh xs rss d) (hl' : EncLife C' page' EncDir.fresh ys rss' d')
    (hs : SameKey key kb page xs) (hs' : SameKey key' kb' page' ys) (hclean : ∀ x ∈ xs ++ ys, x.clean = true)
    (hroom : page * encCallCount xs + 8 < 2 ^ 64) (hctr : encCallCount xs < 2 ^ 32 - 1)
    (hroom' : page' * encCallCount ys + 8 < 2 ^ 64) (hctr' : encCallCount ys < 2 ^ 32 - 1)
    {pre post : List Mutation} {a b : Mutation} (hab : Independent a b)
    (h1 : encAllCalls xs = pre ++ [a, b] ++ post) (h2 : encAllCalls ys = pre ++ [b, a] ++ post) (rand rand' : Bytes)
    (k : String) (token : BitVec 32) (f : Bytes → Out α) :
    ∃ s s', openEnc C page key rand d = some s ∧ openEnc C' page' key' rand' d' = some s' ∧
      s.getAs k token f = s'.getAs k token f := by
  obtain ⟨s, ho, hsh⟩ := C23_close_reopen C h8 h32 hkey hl hs (fun x hx => hclean x (List.mem_append_left _ hx)) hroom hctr rand
  obtain ⟨s', ho', hsh'⟩ := C23_close_reopen C' h8' h32' hkey' hl' hs' (fun x hx => hclean x (List.mem_append_right _ hx)) hroom' hctr' rand'
  refine ⟨s, s', ho, ho', ?_⟩
  have : Store.empty.run (encAllCalls xs) = Store.empty.run (encAllCalls ys) := by
    rw [h1, h2, run_append, run_append, run_append, run_append]
    congr 1
    exact apply_comm _ a b hab
  rw [hsh α k token f, hsh' α k token f]
  exact congrArg (fun S => Store.lookup S k token f) this

/-- **C32** after reopening a plain store. -/
theorem C32_reopen {α : Type} {page : Nat} (h8 : 8 ≤ page) (h32 : page < 2 ^ 32) {xs : List (Session Unit)}
    {rss : List (List (Out Unit))} {d : Dir Unit} (hl : Life plain page Dir.fresh xs rss d)
    (hfit : ∀ x ∈ xs, ∀ e ∈ x.evs, e.Fits page) (hclean : ∀ x ∈ xs, x.clean = true)
    (hroom : page * callCount xs + 8 < 2 ^ 64) {k : String} {token : BitVec 32} (htok : typeTokenNew token = .ok token)
    (toB : α → Bytes) (fromB : Bytes → Out α) (v : α) (hrt : fromB (toB v) = .ok v) {pre post : List Mutation}
    (hcalls : allCalls xs = pre ++ [.put k ⟨token, toB v⟩] ++ post) (hk : ∀ m ∈ post, Leaves k m) :
    ∃ s, openAt plain () page d.file = some s ∧ s.getAs k token fromB = .ok v ∧ ∀ ty : Ty, s.get k ty = .err .typeMissMatch := by
  obtain ⟨_, s, ho, hsh⟩ := C06_close_reopen h8 h32 hl hfit hclean hroom
  have key : ∀ (β : Type) (token' : BitVec 32) (f : Bytes → Out β),
      s.getAs k token' f = if token' = token then f (toB v) else .err .typeMissMatch := by
    intro β token' f
    rw [hsh β k token' f, hcalls, run_append, lookup_leaves _ _ _ hk, run_append]
    exact lookup_put_same _ k ⟨token, toB v⟩ token' f
  refine ⟨s, ho, by rw [key, if_pos rfl, hrt], ?_⟩
  intro ty
  unfold Inst.get
  rw [key, if_neg (fun h => (C32_separate token htok ty).1 h.symm)]

/-! ### Damage of an encrypted file -/

/-- The records of some mutations, encrypted one after the other, the first of them at position `pos`. -/
def sealedRecords (C : Cipher) (k nonce : Bytes) : (pos : Nat) → List Mutation → List Bytes
  | _, [] => []
  | pos, m :: ms => encRecordOf C k nonce pos m :: sealedRecords C k nonce (pos + 1) ms

theorem framed_sealedRecords (C : Cipher) (k nonce : Bytes) : ∀ (ms : List Mutation) (pos : Nat), (∀ m ∈ ms, EncRecorded m) →
    pos + ms.length ≤ 2 ^ 32 - 1 →
    Framed (aeadCodec ⟨C, k, nonce⟩) pos (sealedRecords C k nonce pos ms).flatten (ms.map fun m => some (bufOf m))
  | [], pos, _, _ => .nil pos
  | m :: ms, pos, h, hp => by
    simp only [List.length_cons] at hp
    have h1 := framed_encRecord (C := C) (k := k) (nonce := nonce) (h m List.mem_cons_self) (pos := pos) (by omega)
    have h2 := framed_sealedRecords C k nonce ms (pos + 1) (fun m' hm' => h m' (List.mem_cons_of_mem _ hm')) (by omega)
    exact h1.append (by simpa using h2)

theorem mutations_encRecorded (ms : List Mutation) (h : ∀ m ∈ ms, EncRecorded m) :
    mutations (ms.map fun m => some (bufOf m)) = ms := by
  unfold mutations
  rw [List.filterMap_map]
  induction ms with
  | nil => rfl
  | cons m ms ih =>
    have h1 := (h m List.mem_cons_self).buf.1
    rw [List.filterMap_cons]
    simp only [Function.comp, Option.map_some, h1]
    congr 1
    exact ih fun m' hm' => h m' (List.mem_cons_of_mem _ hm')

theorem openEnc_sealed {C : Cipher} {page : Nat} {key : String} {k nonce rand : Bytes} {file content : Bytes} {items : List (Option Buffer)}
    (hk : decodeKey key = some k) (hn : nonce.length = 11) (hh : Holds file content) (hf : Framed (aeadCodec ⟨C, k, nonce⟩) 0 content items) :
    ∃ s, openEnc C page key rand ⟨file, some nonce⟩ = some s ∧ s.Shows (Store.empty.run (mutations items)) := by
  have hlen := hh.len
  have hne : file.length ≠ 0 := by omega
  have hv : Valid (aeadCodec ⟨C, k, nonce⟩) { file := file, mmLen := file.length, page := page, position := items.length, needTrim := false } content items :=
    ⟨rfl, rfl, hh, hf, rfl⟩
  have hread : WState.readItems { file := file, mmLen := file.length, page := page, position := 0, needTrim := false } (encrypted C (k, nonce)) = some items :=
    by have := readItems_eq hv; exact this
  have hopen : openAt (encrypted C) (k, nonce) page file = some { idx := (k, nonce), kv := (intoMap items).1, lp := Looper.new { ws :=
      { file := file, mmLen := file.length, page := page, position := items.length, needTrim := false } } } := by
    unfold openAt openStore
    simp only [configNew, hne, if_false, hread]
    rfl
  refine ⟨_, ?_, shows_of_view hopen (view_intoMap items)⟩
  unfold openEnc encryptorInit
  rw [hk]
  simp only [Option.map_some, initNonce, nonceLen, hn, if_true]
  exact hopen

/-- What an encrypted file reads as (the reference point for `C20_encrypted`). -/
theorem C20_encrypted_undamaged (C : Cipher) (page : Nat) {key : String} {k nonce : Bytes} (hk : decodeKey key = some k) (hn : nonce.length = 11)
    (ms : List Mutation) (slack rand : Bytes) (hrec : ∀ m ∈ ms, EncRecorded m) (hctr : ms.length ≤ 2 ^ 32 - 1)
    (hbig : (fileOf (sealedRecords C k nonce 0 ms) slack).length < 2 ^ 64) :
    ∃ s, openEnc C page key rand ⟨fileOf (sealedRecords C k nonce 0 ms) slack, some nonce⟩ = some s ∧ s.Shows (Store.empty.run ms) := by
  have hh : Holds (fileOf (sealedRecords C k nonce 0 ms) slack) (sealedRecords C k nonce 0 ms).flatten := by
    refine ⟨?_, slack, rfl⟩
    unfold fileOf at hbig
    simp only [List.length_append, beBytes_length] at hbig
    omega
  obtain ⟨s, hs, hsh⟩ := openEnc_sealed (page := page) (rand := rand) hk hn hh (framed_sealedRecords C k nonce ms 0 hrec (by omega))
  rw [mutations_encRecorded ms hrec] at hsh
  exact ⟨s, hs, hsh⟩

/-- **C20** with encryption: whatever is done to the bytes of one encrypted record, behind its length field, unless the cipher accepts the
result at that position, the directory still opens, every other record has its usual effect, in order, and the damaged one has none. -/
theorem C20_encrypted (C : Cipher) (page : Nat) {key : String} {k nonce : Bytes} (hk : decodeKey key = some k) (hn : nonce.length = 11)
    (pre post : List Mutation) (m : Mutation) (r' slack rand : Bytes) (hrec : ∀ m' ∈ pre ++ [m] ++ post, EncRecorded m')
    (hctr : (pre ++ [m] ++ post).length ≤ 2 ^ 32 - 1) (hl : r'.length = (encRecordOf C k nonce pre.length m).length)
    (h4 : r'.take 4 = (encRecordOf C k nonce pre.length m).take 4) (hno : C.decrypt k nonce pre.length (r'.drop 4) = none)
    (hbig : (fileOf (sealedRecords C k nonce 0 pre ++ [r'] ++ sealedRecords C k nonce (pre.length + 1) post) slack).length < 2 ^ 64) :
    ∃ s, openEnc C page key rand
        ⟨fileOf (sealedRecords C k nonce 0 pre ++ [r'] ++ sealedRecords C k nonce (pre.length + 1) post) slack, some nonce⟩ = some s ∧
      s.Shows (Store.empty.run (pre ++ post)) := by
  have hpre : ∀ m' ∈ pre, EncRecorded m' := fun m' h => hrec m' (by simp [h])
  have hpost : ∀ m' ∈ post, EncRecorded m' := fun m' h => hrec m' (by simp [h])
  have hm := (hrec m (by simp)).buf.2
  have hlen := encRecordOf_length C k nonce pre.length m
  have hok : (kvToBytes (bufOf m)).length + 12 < 2 ^ 32 := hm
  have hne : r' ≠ [] := by intro h0; rw [h0, hlen] at hl; simp at hl
  have hv : beVal (r'.take 4) = (kvToBytes (bufOf m)).length + 8 := by
    rw [h4]
    have hc : (C.encrypt k nonce pre.length (kvToBytes (bufOf m))).length = (kvToBytes (bufOf m)).length + 8 := by
      unfold encRecordOf at hlen
      simp only [List.length_append, beBytes_length] at hlen
      omega
    unfold encRecordOf
    simp only
    rw [List.take_left' (beBytes_length 4 _), hc, beVal_beBytes _ _ (by omega)]
  have hdec : ∀ rest, aeadDec ⟨C, k, nonce⟩ (r' ++ rest) pre.length = .ok none r'.length := by
    intro rest
    have htk : (r' ++ rest).take 4 = r'.take 4 := List.take_append_of_le_length (by omega)
    rw [aeadDec_ok _ _ (by simp; omega) (by rw [htk, hv]; simp; omega) (by rw [htk, hv]; omega), htk, hv,
      List.drop_append_of_le_length (by omega), List.take_left' (by simp; omega)]
    have e : decodeCt ⟨C, k, nonce⟩ pre.length (r'.drop 4) = none := by
      unfold decodeCt Stream.decrypt
      simp only [hno, ite_self]
    rw [e]
    congr 1
    omega
  have hf : Framed (aeadCodec ⟨C, k, nonce⟩) 0 (sealedRecords C k nonce 0 pre ++ [r'] ++ sealedRecords C k nonce (pre.length + 1) post).flatten
      (pre.map (fun m => some (bufOf m)) ++ [none] ++ post.map (fun m => some (bufOf m))) := by
    simp only [List.length_append, List.length_cons, List.length_nil] at hctr
    simp only [List.flatten_append, List.flatten_cons, List.flatten_nil, List.append_nil]
    refine ((framed_sealedRecords C k nonce pre 0 hpre (by omega)).append (.single hne fun rest => ?_)).append ?_
    · simpa [aeadCodec] using hdec rest
    · simpa using framed_sealedRecords C k nonce post (pre.length + 1) hpost (by omega)
  have hh : Holds (fileOf (sealedRecords C k nonce 0 pre ++ [r'] ++ sealedRecords C k nonce (pre.length + 1) post) slack)
      (sealedRecords C k nonce 0 pre ++ [r'] ++ sealedRecords C k nonce (pre.length + 1) post).flatten := by
    refine ⟨?_, slack, rfl⟩
    unfold fileOf at hbig
    simp only [List.length_append, beBytes_length] at hbig
    omega
  obtain ⟨s, hs, hsh⟩ := openEnc_sealed (page := page) (rand := rand) hk hn hh hf
  refine ⟨s, hs, ?_⟩
  have hmu : mutations (pre.map (fun m => some (bufOf m)) ++ [none] ++ post.map (fun m => some (bufOf m))) = pre ++ post := by
    have h1 := mutations_encRecorded pre hpre
    have h2 := mutations_encRecorded post hpost
    unfold mutations at *
    simp only [List.filterMap_append, h1, h2]
    simp
  rw [hmu] at hsh
  exact hsh

/-- A file that is a length header, whole encrypted records (each starting with a correct length field) filling exactly that length, and
slack. -/
def EncTiled (file : Bytes) : Prop :=
  ∃ (chunks : List Bytes) (slack : Bytes), file = fileOf chunks slack ∧ chunks.flatten.length + 8 < 2 ^ 64 ∧
    ∀ chunk ∈ chunks, 4 ≤ chunk.length ∧ chunk.length < 2 ^ 32 ∧ chunk.take 4 = beBytes 4 (chunk.length - 4)

theorem aeadDec_tile (S : Stream) {chunk : Bytes} (h4 : 4 ≤ chunk.length) (h32 : chunk.length < 2 ^ 32)
    (ht : chunk.take 4 = beBytes 4 (chunk.length - 4)) (pos : Nat) :
    ∃ ob, ∀ rest, aeadDec S (chunk ++ rest) pos = .ok ob chunk.length := by
  have hv : beVal (chunk.take 4) = chunk.length - 4 := by rw [ht, beVal_beBytes _ _ (by omega)]
  refine ⟨decodeCt S pos (chunk.drop 4), fun rest => ?_⟩
  have htk : (chunk ++ rest).take 4 = chunk.take 4 := List.take_append_of_le_length h4
  rw [aeadDec_ok S pos (by simp; omega) (by rw [htk, hv]; simp; omega) (by rw [htk, hv]; omega), htk, hv,
    List.drop_append_of_le_length h4, List.take_left' (by simp)]
  congr 1
  omega

theorem framed_of_encTiles (S : Stream) : ∀ (chunks : List Bytes) (pos : Nat),
    (∀ chunk ∈ chunks, 4 ≤ chunk.length ∧ chunk.length < 2 ^ 32 ∧ chunk.take 4 = beBytes 4 (chunk.length - 4)) →
    ∃ items, Framed (aeadCodec S) pos chunks.flatten items
  | [], pos, _ => ⟨[], .nil pos⟩
  | chunk :: chunks, pos, h => by
    obtain ⟨a, b, c⟩ := h chunk List.mem_cons_self
    obtain ⟨ob, hd⟩ := aeadDec_tile S a b c pos
    obtain ⟨items, hf⟩ := framed_of_encTiles S chunks (pos + 1) (fun x hx => h x (List.mem_cons_of_mem _ hx))
    exact ⟨ob :: items, by
      rw [List.flatten_cons]
      exact .cons _ _ _ _ _ (by intro h0; rw [h0] at a; simp at a) hd hf⟩

theorem encTile_of_dec {S : Stream} {chunk : Bytes} {pos : Nat} {ob : Option Buffer} (h : aeadDec S chunk pos = .ok ob chunk.length) :
    4 ≤ chunk.length ∧ chunk.length < 2 ^ 32 ∧ chunk.take 4 = beBytes 4 (chunk.length - 4) := by
  obtain ⟨e1, e2, e3, e4, _⟩ := aeadDec_inv h
  refine ⟨e1, by omega, ?_⟩
  have h5 : beVal (chunk.take 4) = chunk.length - 4 := by omega
  have := beBytes_beVal (chunk.take 4)
  rw [← h5]
  simpa [List.length_take, Nat.min_eq_left e1] using this.symm

/-- **C21** with encryption, what is true: `new` succeeds exactly with a well-formed key, on a missing or empty data file and on files made of
a length header, whole records with correct length fields filling exactly that length, and slack - whatever the bytes in the records, the
slack and the nonce file.  Every other file makes it panic. -/
theorem C21_encrypted_opens_exactly_partial (C : Cipher) {page : Nat} (h8 : 8 ≤ page) (key : String) (rand : Bytes) (d : EncDir) :
    (openEnc C page key rand d).isSome ↔ (decodeKey key).isSome ∧ (d.file = [] ∨ EncTiled d.file) := by
  unfold openEnc encryptorInit
  cases hk : decodeKey key with
  | none => simp
  | some k =>
    simp only [Option.map_some, Option.isSome_some, true_and]
    by_cases hne : d.file = []
    · obtain ⟨s, hs, _⟩ := C22_fresh_empty (encrypted C) (k, initNonce d.nonceFile rand) page h8
      rw [hne, hs]; simp
    · simp only [hne, false_or]
      have hlen : d.file.length ≠ 0 := by simpa using hne
      constructor
      · intro h
        unfold openAt at h
        split at h
        · cases h
        rename_i o hos
        unfold openStore at hos
        simp only [configNew, hlen, if_false] at hos
        split at hos
        · cases hos
        · rename_i items hi
          obtain ⟨_, content, hh, hf⟩ := readItems_inv (aead_lawful ⟨C, k, initNonce d.nonceFile rand⟩) rfl hi
          obtain ⟨chunks, hc, hd⟩ := framed_chunks hf
          subst hc
          obtain ⟨hb, slack, hfile⟩ := hh
          refine ⟨chunks, slack, hfile, hb, fun chunk hch => ?_⟩
          obtain ⟨n, hn⟩ := List.getElem?_of_mem hch
          obtain ⟨ob, _, h2⟩ := hd n chunk hn
          have := h2 []
          rw [List.append_nil] at this
          exact encTile_of_dec this
      · rintro ⟨chunks, slack, hfile, hb, hc⟩
        obtain ⟨items, hf⟩ := framed_of_encTiles ⟨C, k, initNonce d.nonceFile rand⟩ chunks 0 hc
        have hh : Holds d.file chunks.flatten := ⟨hb, slack, hfile⟩
        have hv : Valid (aeadCodec ⟨C, k, initNonce d.nonceFile rand⟩)
            { file := d.file, mmLen := d.file.length, page := page, position := items.length, needTrim := false } chunks.flatten items :=
          ⟨rfl, rfl, hh, hf, rfl⟩
        have hread : WState.readItems { file := d.file, mmLen := d.file.length, page := page, position := 0, needTrim := false }
            (encrypted C (k, initNonce d.nonceFile rand)) = some items := by have := readItems_eq hv; exact this
        unfold openAt openStore
        simp only [configNew, hlen, if_false, hread]
        rfl

/-! ### Concrete cases -/

/-- One session: a string, a custom value, a key put and deleted. -/
def demoMap : List EncSession :=
  [{ key := testKey, rand := nonce1, clean := true,
     evs := encPut (testKeyBytes, nonce1) "s" 1 (strBytes "hé") ++ encPut (testKeyBytes, nonce1) "c" 101 [9, 9] ++
       encPut (testKeyBytes, nonce1) "b" 0 [0, 0, 0, 1] ++
       [.delete "b", .api (testKeyBytes, nonce1), .api (testKeyBytes, nonce1), .io idOrder, .io idOrder, .io idOrder, .io idOrder] ++ encClose }]

theorem demoMap_life : ∃ rss d, EncLife toy 80 EncDir.fresh demoMap rss d := by
  have h : (encLifeRun toy 80 EncDir.fresh demoMap).isSome = true := by decide +kernel
  cases hr : encLifeRun toy 80 EncDir.fresh demoMap with
  | none => simp [hr] at h
  | some p => exact ⟨_, p.2, encLife_of_run _ _ _ _ hr⟩

theorem demoMap_sameKey : SameKey testKey testKeyBytes 80 demoMap := by
  refine ⟨by simp [demoMap], by simp [demoMap, nonce1, nonceLen], ?_⟩
  intro x hx e he
  have hput : ∀ k t bs, (kvToBytes ⟨k, t, bs⟩).length ≤ 68 → (Ev.put k t bs).EncFits testKeyBytes 80 := by
    intro k t bs h; simp only [Ev.EncFits, encRecordSize]; omega
  simp only [demoMap, encPut, encClose, List.cons_append, List.nil_append, List.mem_cons, List.not_mem_nil, or_false] at hx
  subst hx
  simp only [List.mem_cons, List.not_mem_nil, or_false] at he
  repeat' rcases he with rfl | he
  all_goals first
    | trivial
    | exact ⟨rfl, rfl⟩
    | (apply hput; decide +kernel)
    | exact fun l => List.reverse_perm l
    | exact fun l => List.Perm.refl l

example : ∃ d s, openEnc toy 80 testKey nonce1 d = some s ∧ s.get "s" .str = .ok "hé" := by
  obtain ⟨rss, d, hl⟩ := demoMap_life
  obtain ⟨s, h1, h2, _⟩ := C02_encrypted_reopen toy (by decide) (by decide) decode_testKey hl demoMap_sameKey (by simp [demoMap]) (by decide) (by decide)
    nonce1 (k := "s") (t := .str) (v := "hé") (pre := [])
    (post := [.put "c" ⟨101, [9, 9]⟩, .put "b" ⟨0, [0, 0, 0, 1]⟩, .delete "b"]) rfl (by simp [Leaves])
  exact ⟨d, s, h1, h2⟩

example : ∃ d s, openEnc toy 80 testKey nonce1 d = some s ∧ s.getAs "b" 0 (Out.ok : Bytes → Out Bytes) = .err .keyNotFound := by
  obtain ⟨rss, d, hl⟩ := demoMap_life
  obtain ⟨s, h1, h2⟩ := C04_encrypted_reopen toy (by decide) (by decide) decode_testKey hl demoMap_sameKey (by simp [demoMap]) (by decide) (by decide)
    nonce1 (k := "b") (pre := [.put "s" ⟨1, strBytes "hé"⟩, .put "c" ⟨101, [9, 9]⟩, .put "b" ⟨0, [0, 0, 0, 1]⟩])
    (post := []) rfl (by simp) 0 (Out.ok : Bytes → Out Bytes)
  exact ⟨d, s, h1, h2⟩

/-- A custom type: a list of bytes, stored as it is. -/
example : ∃ d s, openEnc toy 80 testKey nonce1 d = some s ∧ s.getAs "c" 101 (Out.ok : Bytes → Out Bytes) = .ok [9, 9] := by
  obtain ⟨rss, d, hl⟩ := demoMap_life
  obtain ⟨s, h1, h2, _⟩ := C32_encrypted_reopen toy (by decide) (by decide) decode_testKey hl demoMap_sameKey (by simp [demoMap]) (by decide) (by decide)
    nonce1 (k := "c") (token := 101) (by decide) (fun b : Bytes => b) Out.ok [9, 9] rfl (pre := [.put "s" ⟨1, strBytes "hé"⟩])
    (post := [.put "b" ⟨0, [0, 0, 0, 1]⟩, .delete "b"]) rfl (by simp [Leaves])
  exact ⟨d, s, h1, h2⟩

/-- Three records; a byte of the second is changed. -/
def bent : Bytes := (encRecordOf toy testKeyBytes nonce1 1 (.put "b" ⟨1, [2]⟩)).set 14 0xEE

example : ∃ s, openEnc toy 80 testKey [] ⟨fileOf (sealedRecords toy testKeyBytes nonce1 0 [.put "a" ⟨1, [1]⟩] ++ [bent] ++
      sealedRecords toy testKeyBytes nonce1 2 [.delete "a"]) (zeros 9), some nonce1⟩ = some s ∧
    s.Shows (Store.empty.run [.put "a" ⟨1, [1]⟩, .delete "a"]) := by
  have hsz : ∀ m ∈ [Mutation.put "a" ⟨1, [1]⟩] ++ [.put "b" ⟨1, [2]⟩] ++ [.delete "a"], EncRecorded m := by
    intro m hm
    simp only [List.cons_append, List.nil_append, List.mem_cons, List.not_mem_nil, or_false] at hm
    rcases hm with rfl | rfl | rfl
    · exact ⟨by decide, by decide +kernel⟩
    · exact ⟨by decide, by decide +kernel⟩
    · show encRecordSize _ _ _ < _
      decide +kernel
  exact C20_encrypted toy 80 decode_testKey (by decide) [.put "a" ⟨1, [1]⟩] [.delete "a"] (.put "b" ⟨1, [2]⟩) bent (zeros 9) [] hsz
    (by decide) (by decide +kernel) (by decide +kernel) (by decide +kernel) (by decide +kernel)

/-- A file of garbage with right length fields opens, whatever the key; and one with a wrong one does not. -/
example : EncTiled (beBytes 8 11 ++ [0, 0, 0, 3, 250, 251, 252, 0, 0, 0, 0] ++ zeros 45) :=
  ⟨[[0, 0, 0, 3, 250, 251, 252], [0, 0, 0, 0]], zeros 45, rfl, by decide, by decide⟩

end Mmkv
