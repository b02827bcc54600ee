import Verif.Lemmas.CrcPoly
import Verif.Lemmas.Wire
import Verif.Props.Records
import Verif.Props.Encrypt
/-!
# C80: the data file follows its format

The format is that of `SpecFormat`: lengths, the protobuf wire format, CRC-8/AUTOSAR.  Whatever the library has written can be
read by anything that knows the format, and the library reads whatever follows the format, whoever wrote it.
-/

namespace Mmkv
open Spec Inst
open Spec.Format (num IsKv IsCrc Record Records File Sealed SealedFile contents Kv)

/-- **C80**, checksum: the byte-wise table algorithm computes the remainder of the polynomial division, for every message. -/
theorem C80_checksum (msg : Bytes) (sum : UInt8) : IsCrc msg sum ↔ crc8 msg = sum := isCrc_iff

/-- The check value listed for CRC-8/AUTOSAR: the checksum of the text "123456789" is DF. -/
example : IsCrc [49, 50, 51, 52, 53, 54, 55, 56, 57] 0xDF := (C80_checksum _ _).2 (by decide +kernel)

/-- **C80**, message: the reader accepts exactly the messages of the protobuf wire format (fields in any order, repeated,
unknown), and reads them as protobuf says. -/
theorem C80_message (bs : Bytes) (key : String) (type : BitVec 32) (value : Bytes) :
    kvFromBytes bs = some ⟨key, type, value⟩ ↔ IsKv bs ⟨key, type, value⟩ := kvFromBytes_iff

/-- Non-vacuity: fields in another order, the type twice, and an unknown field 4. -/
example : IsKv [16, 3, 26, 1, 7, 34, 2, 9, 9, 16, 5, 10, 1, 107] ⟨"k", 5, [7]⟩ :=
  (C80_message _ _ _ _).1 (by decide +kernel)

theorem record_dec {r : Bytes} {kv : Kv} (h : Record r kv) (hlen : r.length < 2 ^ 32) (rest : Bytes) (pos : Nat) :
    crcDec (r ++ rest) pos = .ok (some (ofKv kv)) r.length := by
  obtain ⟨len, msg, sum, rfl, h4, hn, hk, hc⟩ := h
  rw [num_eq_beVal] at hn
  have hb : len = beBytes 4 (msg.length + 1) := by rw [← hn, ← h4, beBytes_beVal]
  simp only [List.length_append, List.length_cons, List.length_nil, h4] at hlen
  have := crcDec_frame msg sum rest pos (by omega)
  rw [if_pos (isCrc_iff.1 hc), kvFromBytes_iff.2 (by rw [toKv_ofKv]; exact hk : IsKv msg (toKv (ofKv kv)))] at this
  rw [hb]
  simp only [List.append_assoc] at this ⊢
  rw [this]
  simp; omega

theorem record_of_dec {r : Bytes} {b : Buffer} {pos : Nat} (h : crcDec r pos = .ok (some b) r.length) :
    Record r (toKv b) ∧ r.length < 2 ^ 32 := by
  unfold crcDec at h
  split at h
  · cases h
  · rename_i h4
    simp only at h
    split at h
    · cases h
    · rename_i h0
      split at h
      · cases h
      · rename_i hl
        split at h
        · cases h
        · rename_i h32
          simp only [DecRes.ok.injEq] at h
          obtain ⟨hbuf, hlen⟩ := h
          split at hbuf
          · rename_i hcrc
            have hdl : (r.drop 4).length = beVal (r.take 4) := by rw [List.length_drop]; omega
            have hm : ((r.drop 4).take (beVal (r.take 4) - 1)).length = beVal (r.take 4) - 1 := by
              rw [List.length_take, hdl]; omega
            have hlast : r.getD (4 + beVal (r.take 4) - 1) 0 = r[r.length - 1]'(by omega) := by
              rw [List.getD_eq_getElem?_getD]
              have : 4 + beVal (r.take 4) - 1 = r.length - 1 := by omega
              rw [this, List.getElem?_eq_getElem (by omega)]
              rfl
            refine ⟨⟨r.take 4, (r.drop 4).take (beVal (r.take 4) - 1), r.getD (4 + beVal (r.take 4) - 1) 0, ?_, by simp; omega, ?_,
              kvFromBytes_iff.1 hbuf, isCrc_iff.2 hcrc⟩, by omega⟩
            · have hd : (r.drop 4).drop (beVal (r.take 4) - 1) = [r.getD (4 + beVal (r.take 4) - 1) 0] := by
                rw [List.drop_drop, hlast]
                have : 4 + (beVal (r.take 4) - 1) = r.length - 1 := by omega
                rw [this, List.drop_eq_getElem_cons (by omega), show r.length - 1 + 1 = r.length by omega, List.drop_length]
              rw [← hd, List.take_append_drop, List.take_append_drop]
            · rw [num_eq_beVal, hm]; omega
          · cases hbuf

/-- **C80**, record: the library takes a string of bytes for a record with this content exactly if the format does (up to the
4 GiB a length field can express). -/
theorem C80_record (r : Bytes) (kv : Kv) :
    (Record r kv ∧ r.length < 2 ^ 32) ↔ ∀ rest pos, crcDec (r ++ rest) pos = .ok (some ⟨kv.key, kv.type, kv.value⟩) r.length := by
  constructor
  · rintro ⟨h, hl⟩ rest pos
    exact record_dec h hl rest pos
  · intro h
    have := h [] 0
    rw [List.append_nil] at this
    exact record_of_dec this

/-- **C80**, written records: what is written for a key, type and value is a record of the format with that content. -/
theorem C80_written (key : String) (type : BitVec 32) (value : Bytes) (pos : Nat) (h : recordSize key type value < 2 ^ 32) :
    ∃ r, crcEnc ⟨key, type, value⟩ pos = some r ∧ Record r ⟨key, type, value⟩ := by
  obtain ⟨r, hr, _, _, hd⟩ := C18_roundtrip key type value pos h
  have := hd [] 0
  rw [List.append_nil] at this
  exact ⟨r, hr, (record_of_dec this).1⟩

/-- Non-vacuity, and the exact bytes of a record: length 11, key "a", no type (0 is the default), value 1, checksum. -/
example : crcEnc ⟨"a", 0, [0, 0, 0, 1]⟩ 0 = some [0, 0, 0, 10, 10, 1, 97, 26, 4, 0, 0, 0, 1, crc8 [10, 1, 97, 26, 4, 0, 0, 0, 1]] ∧
    crc8 [10, 1, 97, 26, 4, 0, 0, 0, 1] = 0x86 := by
  constructor <;> decide +kernel

theorem records_framed {content : Bytes} {kvs : List Kv} (h : Records content kvs)
    (hl : ∀ r kv, Record r kv → r <:+: content → r.length < 2 ^ 32) (pos : Nat) :
    Framed crcCodec pos content (kvs.map fun kv => some (ofKv kv)) := by
  induction h generalizing pos with
  | nil => exact .nil _
  | @cons r rest kv kvs hr hs ih =>
    have hrl : r.length < 2 ^ 32 := hl r kv hr ⟨[], rest, by simp⟩
    refine .cons _ _ _ _ _ ?_ (fun rest' => record_dec hr hrl rest' pos) (ih ?_ _)
    · obtain ⟨len, msg, sum, rfl, h4, _⟩ := hr
      intro h
      have := congrArg List.length h
      simp at this
    · intro r' kv' h1 h2
      exact hl r' kv' h1 (h2.trans ⟨r, [], by simp⟩)

theorem framed_records' {content : Bytes} {pos : Nat} {items : List (Option Buffer)} (h : Framed crcCodec pos content items)
    (hn : none ∉ items) : ∃ kvs, Records content kvs ∧ items = kvs.map fun kv => some (ofKv kv) := by
  induction h with
  | nil => exact ⟨[], .nil, rfl⟩
  | cons pos chunk content ob items hne hdec _ ih =>
    obtain ⟨kvs, hk, rfl⟩ := ih (fun h => hn (List.mem_cons_of_mem _ h))
    cases ob with
    | none => simp at hn
    | some b =>
      have : crcDec (chunk ++ []) pos = _ := hdec []
      rw [List.append_nil] at this
      exact ⟨toKv b :: kvs, .cons (record_of_dec this).1 hk, by simp⟩

theorem mutations_kvs (kvs : List Kv) : mutations (kvs.map fun kv => some (ofKv kv)) = kvs.map Spec.Format.mutation := by
  unfold mutations
  induction kvs with
  | nil => rfl
  | cons kv kvs ih =>
    simp only [List.map_cons, List.filterMap_cons, Option.map_some, ih, List.cons.injEq, and_true]
    unfold Buffer.mutation Spec.Format.mutation
    simp only [Buffer.isDeleting, ofKv, deletedToken, beq_iff_eq]
    rfl

theorem open_framed_any {ι : Type} {codecs : ι → Codec} {i : ι} {page : Nat} {file content : Bytes} {items : List (Option Buffer)}
    (hh : Holds file content) (hf : Framed (codecs i) 0 content items) :
    ∃ s, openAt codecs i page file = some s ∧ s.Shows (Store.empty.run (mutations items)) := by
  have hlen := hh.len
  have hne : file.length ≠ 0 := by omega
  have hv : Valid (codecs i) { file := file, mmLen := file.length, page := page, position := items.length, needTrim := false } content items :=
    ⟨rfl, rfl, hh, hf, rfl⟩
  have hread : WState.readItems { file := file, mmLen := file.length, page := page, position := 0, needTrim := false } (codecs i) = some items :=
    by have := readItems_eq hv; exact this
  have hopen : openAt codecs i page file = some { idx := i, kv := (intoMap items).1, lp := Looper.new { ws :=
      { file := file, mmLen := file.length, page := page, position := items.length, needTrim := false } } } := by
    unfold openAt openStore
    simp only [configNew, hne, if_false, hread]
    rfl
  exact ⟨_, hopen, shows_of_view hopen (view_intoMap items)⟩

theorem read_general {file : Bytes} {kvs : List Kv} (h : File file kvs) (hrec : ∀ r kv, Record r kv → r <:+: file → r.length < 2 ^ 32)
    (hlen : file.length < 2 ^ 64) (page : Nat) :
    ∃ s, openAt plain () page file = some s ∧ s.Shows (contents kvs) := by
  obtain ⟨hdr, content, unused, rfl, h8, hn, hr⟩ := h
  simp only [List.length_append, h8] at hlen
  have hh : Holds (hdr ++ (content ++ unused)) content := by
    refine ⟨by omega, unused, ?_⟩
    rw [num_eq_beVal] at hn
    rw [← hn, ← h8, beBytes_beVal, List.append_assoc]
  obtain ⟨s, hs, hsh⟩ := open_framed_any (codecs := plain) (i := ()) (page := page) hh
    (records_framed hr (fun r kv h1 h2 => hrec r kv h1 (h2.trans ⟨hdr, unused, by simp⟩)) 0)
  rw [mutations_kvs] at hsh
  exact ⟨s, hs, hsh⟩

/-- **C80**, reading: a file that follows the format - whoever wrote it - opens, and shows exactly what its records stand for. -/
theorem C80_read {file : Bytes} {kvs : List Kv} (h : File file kvs) (hrec : ∀ r kv, Record r kv → r <:+: file → r.length < 2 ^ 32)
    (hlen : file.length < 2 ^ 64) (page : Nat) :
    ∃ s, openAt plain () page file = some s ∧
      ∀ (α : Type) (key : String) (token : BitVec 32) (fromB : Bytes → Out α),
        s.getAs key token fromB = Store.lookup (contents kvs) key token fromB :=
  read_general h hrec hlen page

theorem goodFile_format {page : Nat} {h8 : 8 ≤ page} {K : Nat} {file : Bytes} {S : Store}
    (h : GoodFile (plainEnv page h8 False) crcCodec K file S) : file = [] ∧ S = Store.empty ∨ ∃ kvs, File file kvs ∧ contents kvs = S := by
  cases h with
  | empty => exact .inl ⟨rfl, rfl⟩
  | held hh hf _ _ _ _ hn =>
    right
    obtain ⟨kvs, hk, rfl⟩ := framed_records' hf hn
    obtain ⟨hb, tail, rfl⟩ := hh
    refine ⟨kvs, ⟨_, _, tail, List.append_assoc .., by simp, ?_, hk⟩, ?_⟩
    · rw [num_eq_beVal, beVal_beBytes _ _ (by omega)]
    · rw [mutations_kvs]; rfl

/-- **C80**, writing: at every moment of any life of a directory (between two background writes) the data file is missing or
follows the format; and what its records stand for is what survives of the calls made: some first part of each session's, all
of them if it was closed. -/
theorem C80_file {page : Nat} (h8 : 8 ≤ page) (h32 : page < 2 ^ 32) {xs : List (Session Unit)}
    {rss : List (List (Out Unit))} {d : Dir Unit} (hl : Life plain page Dir.fresh xs rss d)
    (hfit : ∀ x ∈ xs, ∀ e ∈ x.evs, e.Fits page) (hroom : page * callCount xs + 8 < 2 ^ 64) :
    ∃ S, Survives Store.empty (sessionCalls xs) S ∧ (d.file = [] ∧ S = Store.empty ∨ ∃ kvs, File d.file kvs ∧ contents kvs = S) := by
  obtain ⟨_, S, hS, hg⟩ := life_survives (E := plainEnv page h8 False) (K := 0) hl (goodDir_fresh _ 0)
    (fun x hx e he => (hfit x hx e he).ok h32) (by rw [Nat.zero_add]; exact plain_room hroom)
  exact ⟨S, hS, goodFile_format (hg () (fun _ _ => rfl))⟩

/-- **C80**, at rest: once the background thread has nothing left to do, the records of the file stand for exactly the calls made. -/
theorem C80_at_rest {page : Nat} (h8 : 8 ≤ page) (h32 : page < 2 ^ 32) {s0 s : Inst Unit} {es : List (Ev Unit)}
    {rs : List (Out Unit)} (hopen : openAt plain () page [] = some s0) (hrun : run plain s0 es = some (s, rs))
    (hfit : ∀ e ∈ es, e.Fits page) (hroom : page * (calls es).length + 8 < 2 ^ 64)
    (hidle : s.phase = .idle) (hrest : ∀ o, step plain s (.io o) = none) :
    ∃ kvs, File s.disk kvs ∧ contents kvs = Store.empty.run (calls es) := by
  obtain ⟨s1, hs1, hd1, _⟩ := dinv_open (GoodFile.empty (E := plainEnv page h8 False) (c := plain ()) (K := 0))
  have hopen' : openAt plain () page [] = some s1 := hs1
  rw [hopen] at hopen'
  injection hopen' with hopen'
  subst hopen'
  obtain ⟨_, hd⟩ := dinv_run es hd1 (fun e he => (hfit e he).ok h32)
    (by simpa using (plain_room hroom : (plainEnv page h8 False).Room _)) hrun
  rw [List.nil_append] at hd
  obtain ⟨hio, hch⟩ := io_at_rest hd hidle hrest
  obtain ⟨hnr, hg⟩ := disk_drained hd (by simp [hidle, Phase.clearing]) (drained_at_rest hd hidle hio hch)
  rcases goodFile_format hg with ⟨hnil, _⟩ | h
  · exfalso
    obtain ⟨_, _, _, content, items, _, _, hw, _, _⟩ := hd.ex
    have := hw.holds.len
    have hd' : s.disk = s.lp.cb.ws.file := by simp [disk, hnr]
    rw [← hd', hnil] at this
    simp at this
  · exact h

/-! ### With encryption -/

/-- The stream of src/core/encrypt.rs:105-129 as the format's notion of a sealed message: record number `pos` is sealed under the
key, the nonce of the nonce file and `pos`; the very last position is never used. -/
def openSealed (C : Cipher) (key nonce : Bytes) (pos : Nat) (box : Bytes) : Option Bytes :=
  if pos = 2 ^ 32 - 1 then none else C.decrypt key nonce pos box

theorem framed_sealed {C : Cipher} {k n : Bytes} {content : Bytes} {pos : Nat} {items : List (Option Buffer)}
    (h : Framed (encrypted C (k, n)) pos content items) (hn : none ∉ items) :
    ∃ kvs, Sealed (openSealed C k n) pos content kvs ∧ items = kvs.map fun kv => some (ofKv kv) := by
  induction h with
  | nil => exact ⟨[], .nil _, rfl⟩
  | cons pos chunk content ob items hne hdec _ ih =>
    obtain ⟨kvs, hk, rfl⟩ := ih (fun h => hn (List.mem_cons_of_mem _ h))
    cases ob with
    | none => simp at hn
    | some b =>
      have h0 : aeadDec ⟨C, k, n⟩ (chunk ++ []) pos = _ := hdec []
      rw [List.append_nil] at h0
      unfold aeadDec at h0
      split at h0
      · cases h0
      · rename_i h4
        simp only at h0
        split at h0
        · cases h0
        · rename_i hl
          split at h0
          · cases h0
          · simp only [DecRes.ok.injEq] at h0
            obtain ⟨hbuf, hlen⟩ := h0
            split at hbuf
            · rename_i msg hmsg
              have htake : (chunk.drop 4).take (beVal (chunk.take 4)) = chunk.drop 4 := by
                apply List.take_of_length_le; rw [List.length_drop]; omega
              rw [htake] at hmsg
              refine ⟨toKv b :: kvs, ?_, by simp⟩
              have := Sealed.cons (opened := openSealed C k n) (pos := pos) (len := chunk.take 4) (box := chunk.drop 4) (rest := content)
                (by simp; omega) (by rw [num_eq_beVal, List.length_drop]; omega) hmsg (kvFromBytes_iff.1 hbuf) hk
              rwa [← List.append_assoc, List.take_append_drop] at this
            · cases hbuf

theorem life_idx_none {ι : Type} {codecs : ι → Codec} {page : Nat} {d d' : Dir ι} {xs : List (Session ι)} {rss : List (List (Out Unit))}
    (h : Life codecs page d xs rss d') (hd : d.idx = none → d.file = []) : d'.idx = none → d'.file = [] := by
  induction h with
  | nil => exact hd
  | cons _ _ _ _ _ ih =>
    apply ih
    intro h
    simp only [Inst.dir] at h ⊢
    split at h
    · simp [disk, *]
    · cases h

/-- **C80**, encrypted: the same with encryption under one key, whatever the cipher: the data file is missing, or the nonce file is
there and the data file follows the encrypted format under that nonce. -/
theorem C80_encrypted (C : Cipher) {page : Nat} (h8 : 8 ≤ page) (h32 : page < 2 ^ 32) {key : String} {k : Bytes}
    (hk : decodeKey key = some k) {xs : List EncSession} {rss : List (List (Out Unit))} {d : EncDir}
    (hl : EncLife C page EncDir.fresh xs rss d) (hs : SameKey key k page xs)
    (hroom : page * encCallCount xs + 8 < 2 ^ 64) (hctr : encCallCount xs < 2 ^ 32 - 1) :
    ∃ S, Survives Store.empty (encCalls xs) S ∧
      (d.file = [] ∧ S = Store.empty ∨
        ∃ nonce kvs, d.nonceFile = some nonce ∧ nonce.length = 11 ∧ SealedFile (openSealed C k nonce) d.file kvs ∧ contents kvs = S) := by
  obtain ⟨ys, g', hl', hg', hc, hf, _⟩ := life_of_encLife hk hl hs (g := Dir.fresh) ⟨rfl, by simp [Dir.fresh]⟩
  have hcc := callCount_eq hc
  obtain ⟨hr, S, hS, hg⟩ := life_survives (E := encEnv C page h8 False) (K := 0) hl' (goodDir_fresh _ 0)
    (fun y hy e he => (hf y hy e he).ok h32) (by
      rw [Nat.zero_add, hcc]
      exact ⟨hroom, by simpa [encEnv, aeadPos, counterMax] using hctr⟩)
  refine ⟨S, by rw [← hc]; exact hS, ?_⟩
  cases hidx : g'.idx with
  | none =>
    have hnil := life_idx_none hl' (fun _ => rfl) hidx
    have hgf := hg (k, []) (by simp [hidx])
    rw [hnil] at hgf
    left
    refine ⟨by rw [← hg'.1]; exact hnil, ?_⟩
    generalize hb : ([] : Bytes) = f at hgf
    cases hgf with
    | empty => rfl
    | held hh => subst hb; exact absurd hh.len (by simp)
  | some j =>
    obtain ⟨j1, j2, j3⟩ := hg'.2 j hidx
    have hgf := hg j (by intro j' hj'; rw [hidx] at hj'; injection hj')
    rw [hg'.1] at hgf
    generalize d.file = f at hgf ⊢
    cases hgf with
    | empty => exact .inl ⟨rfl, rfl⟩
    | held hh hfr _ _ _ _ hn =>
      right
      obtain ⟨j1', jn⟩ := j
      simp only at j1 j2 j3
      subst j1
      obtain ⟨kvs, hkv, rfl⟩ := framed_sealed hfr hn
      obtain ⟨hb, tail, rfl⟩ := hh
      refine ⟨jn, kvs, j3, j2, ⟨_, _, tail, List.append_assoc .., by simp, ?_, hkv⟩, ?_⟩
      · rw [num_eq_beVal, beVal_beBytes _ _ (by omega)]
      · rw [mutations_kvs]; rfl

theorem sealed_framed {C : Cipher} {k n : Bytes} {content : Bytes} {pos : Nat} {kvs : List Kv} (h : Sealed (openSealed C k n) pos content kvs)
    (hl : content.length < 2 ^ 32) : Framed (encrypted C (k, n)) pos content (kvs.map fun kv => some (ofKv kv)) := by
  induction h with
  | nil => exact .nil _
  | @cons pos len box rest msg kv kvs h4 hn hu hk hs ih =>
    simp only [List.length_append, h4] at hl
    rw [← List.append_assoc]
    refine .cons _ _ _ _ _ ?_ (fun rest' => ?_) (ih (by omega))
    · intro h
      have := congrArg List.length h
      simp [h4] at this
    · rw [num_eq_beVal] at hn
      have ht : (len ++ box ++ rest').take 4 = len := by rw [List.append_assoc, List.take_append_of_le_length (by omega), List.take_of_length_le (by omega)]
      have hd : (len ++ box ++ rest').drop 4 = box ++ rest' := by rw [List.append_assoc, List.drop_append_of_le_length (by omega), List.drop_of_length_le (by omega)]; rfl
      show aeadDec ⟨C, k, n⟩ (len ++ box ++ rest') pos = _
      unfold aeadDec
      rw [ht, hd, hn]
      rw [if_neg (by simp [h4])]
      simp only []
      rw [if_neg (by simp [h4]), if_neg (by omega), List.take_append_of_le_length (Nat.le_refl _), List.take_length]
      have hu' : Stream.decrypt ⟨C, k, n⟩ box pos = some msg := hu
      rw [hu']
      simp only []
      rw [kvFromBytes_iff.2 (by rw [toKv_ofKv]; exact hk : IsKv msg (toKv (ofKv kv)))]
      simp [h4]

/-- **C80**, reading an encrypted file: a file that follows the encrypted format under the key and the nonce file opens, and shows
what its records stand for. -/
theorem C80_read_encrypted (C : Cipher) {page : Nat} {key : String} {k : Bytes} (hk : decodeKey key = some k) {d : EncDir} {nonce : Bytes}
    {kvs : List Kv} (hn : d.nonceFile = some nonce) (h11 : nonce.length = 11) (h : SealedFile (openSealed C k nonce) d.file kvs)
    (hlen : d.file.length < 2 ^ 32) (rand : Bytes) :
    ∃ s, openEnc C page key rand d = some s ∧
      ∀ (α : Type) (key : String) (token : BitVec 32) (fromB : Bytes → Out α),
        s.getAs key token fromB = Store.lookup (contents kvs) key token fromB := by
  rw [openEnc_eq hk, hn]
  have hin : initNonce (some nonce) rand = nonce := by simp [initNonce, nonceLen, h11]
  rw [hin]
  generalize d.file = file at h hlen
  obtain ⟨hdr, content, unused, rfl, h8, hnum, hr⟩ := h
  simp only [List.length_append, h8] at hlen
  have hh : Holds (hdr ++ (content ++ unused)) content := by
    refine ⟨by omega, unused, ?_⟩
    rw [num_eq_beVal] at hnum
    rw [← hnum, ← h8, beBytes_beVal, List.append_assoc]
  have hf := sealed_framed hr (by omega)
  obtain ⟨s, hs, hsh⟩ := open_framed_any (codecs := encrypted C) (page := page) hh hf
  rw [mutations_kvs] at hsh
  exact ⟨s, hs, hsh⟩

/-! ### One file, one content -/

theorem isKv_unique {bs : Bytes} {kv kv' : Kv} (h : IsKv bs kv) (h' : IsKv bs kv') : kv = kv' := by
  have h1 := kvFromBytes_iff.2 (by rw [toKv_ofKv]; exact h : IsKv bs (toKv (ofKv kv)))
  have h2 := kvFromBytes_iff.2 (by rw [toKv_ofKv]; exact h' : IsKv bs (toKv (ofKv kv')))
  rw [h1] at h2
  injection h2 with h2
  rw [← toKv_ofKv kv, h2, toKv_ofKv]

theorem records_unique {content : Bytes} {kvs : List Kv} (h : Records content kvs) : ∀ {kvs'}, Records content kvs' → kvs = kvs' := by
  induction h with
  | nil =>
    intro kvs' h'
    generalize hc : ([] : Bytes) = c at h'
    cases h' with
    | nil => rfl
    | cons hr _ =>
      obtain ⟨len, msg, sum, rfl, _, _⟩ := hr
      have := congrArg List.length hc
      simp at this
  | @cons r rest kv kvs hr hs ih =>
    intro kvs' h'
    obtain ⟨len, msg, sum, rfl, h4, hn, hk, _⟩ := hr
    generalize hc : len ++ (msg ++ [sum]) ++ rest = c at h'
    cases h' with
    | nil =>
      have := congrArg List.length hc
      simp at this
    | @cons r' rest' kv' kvs' hr' hs' =>
      obtain ⟨len', msg', sum', rfl, h4', hn', hk', _⟩ := hr'
      simp only [List.append_assoc] at hc
      obtain ⟨rfl, hc1⟩ := List.append_inj hc (by omega)
      obtain ⟨rfl, hc2⟩ := List.append_inj hc1 (by omega)
      simp only [List.cons_append, List.nil_append, List.cons.injEq] at hc2
      obtain ⟨rfl, rfl⟩ := hc2
      rw [isKv_unique hk hk', ih hs']

/-- **C80**, unambiguous: a file has one reading at most. -/
theorem C80_unambiguous {file : Bytes} {kvs kvs' : List Kv} (h : File file kvs) (h' : File file kvs') : kvs = kvs' := by
  obtain ⟨hdr, content, unused, rfl, h8, hn, hr⟩ := h
  obtain ⟨hdr', content', unused', hc, h8', hn', hr'⟩ := h'
  obtain ⟨rfl, hc1⟩ := List.append_inj hc (by omega)
  obtain ⟨rfl, _⟩ := List.append_inj hc1 (by omega)
  exact records_unique hr hr'

/-! ### Non-vacuity -/

/-- A record for key "a": length 10, the key (field 1), the value 1 (field 3; the type is 0 and left out), checksum 86. -/
def formatDemoRecord : Bytes := [0, 0, 0, 10, 10, 1, 97, 26, 4, 0, 0, 0, 1, 0x86]

theorem formatDemoRecord_ok : Record formatDemoRecord ⟨"a", 0, [0, 0, 0, 1]⟩ :=
  ⟨[0, 0, 0, 10], [10, 1, 97, 26, 4, 0, 0, 0, 1], 0x86, rfl, rfl, rfl, (C80_message _ _ _ _).1 (by decide +kernel), (C80_checksum _ _).2 (by decide +kernel)⟩

/-- A file somebody else wrote, with the record twice and three bytes of unused space: the hypotheses of `C80_read` hold. -/
example : File ([0, 0, 0, 0, 0, 0, 0, 28] ++ (formatDemoRecord ++ formatDemoRecord ++ [9, 9, 9]))
    [⟨"a", 0, [0, 0, 0, 1]⟩, ⟨"a", 0, [0, 0, 0, 1]⟩] := by
  refine ⟨_, formatDemoRecord ++ formatDemoRecord, _, rfl, rfl, by decide +kernel, ?_⟩
  have := Records.cons formatDemoRecord_ok (Records.cons formatDemoRecord_ok .nil)
  rwa [List.append_nil] at this

/-- A run that meets the hypotheses of `C80_at_rest`: the file holds exactly this record. -/
example : passes (fresh64 (fullPut "a" 0 [0, 0, 0, 1])) (fun s rs =>
    decide (s.phase = .idle ∧ s.lp.io = .recv ∧ s.lp.chan = [] ∧ rs = [.ok ()] ∧
      s.disk = [0, 0, 0, 0, 0, 0, 0, 14] ++ formatDemoRecord ++ List.replicate 42 0)) = true := by decide +kernel

/-- Lives that meet the hypotheses of `C80_encrypted`: the first session of `demoEnc` leaves a file with two sealed records. -/
example : ∃ rss d, EncLife toy 80 EncDir.fresh (demoEnc.take 1) rss d ∧ d.nonceFile = some nonce1 ∧
    (cipherTexts d.file).map List.length = some 2 := by
  have h : ((encLifeRun toy 80 EncDir.fresh (demoEnc.take 1)).map fun p =>
      decide (p.2.nonceFile = some nonce1 ∧ (cipherTexts p.2.file).map List.length = some 2)) = some true := by decide +kernel
  cases hr : encLifeRun toy 80 EncDir.fresh (demoEnc.take 1) with
  | none => simp [hr] at h
  | some p =>
    rw [hr] at h
    simp only [Option.map_some, Option.some.injEq] at h
    exact ⟨_, p.2, encLife_of_run _ _ _ _ hr, (of_decide_eq_true h).1, (of_decide_eq_true h).2⟩

end Mmkv
