import Verif.Lemmas.Copy
import Verif.Props.Amplify
import Verif.Props.Build
import Verif.Props.EncLife2
import Verif.Props.Clear
/-!
# C94: a copy of the data file made while the store is in use

A backup tool reads the data file from front to back while the program goes on.  Does the copy open, and show what the file showed when the copy began?
-/

namespace Mmkv
open Spec Inst
variable {ι : Type}

/-- Opening looks at the header and at the bytes it covers. -/
theorem openAt_same {codecs : ι → Codec} {i : ι} {page : Nat} {file c : Bytes} {u : Nat} {q : Option Nat} {s : Inst ι}
    (h : openAt codecs i page file u q = some s) (hne : file.length ≠ 0) (hlen : file.length ≤ c.length)
    (hsame : c.take (8 + header file) = file.take (8 + header file)) :
    ∃ s', openAt codecs i page c u q = some s' ∧ s'.kv = s.kv ∧ s'.poisoned = s.poisoned ∧ s'.valid = s.valid := by
  have h8 : c.take 8 = file.take 8 := by
    have := congrArg (List.take 8) hsame
    rwa [List.take_take, List.take_take, Nat.min_eq_left (by omega)] at this
  have hcne : c.length ≠ 0 := by omega
  unfold openAt openStore at h ⊢
  simp only [configNew, hne, hcne, if_false] at h ⊢
  have hw : WState.writeOffset { file := c, mmLen := c.length, page, position := 0, needTrim := false, usizeBytes := u, quota := q } =
      WState.writeOffset { file := file, mmLen := file.length, page, position := 0, needTrim := false, usizeBytes := u, quota := q } ∨
      WState.writeOffset { file := file, mmLen := file.length, page, position := 0, needTrim := false, usizeBytes := u, quota := q } = none := by
    unfold WState.writeOffset WState.lenOffset
    simp only [h8]
    by_cases hf : file.length < 8
    · right; rw [if_pos hf]
    · left; rw [if_neg hf, if_neg (by omega)]
  have hr : ∀ items, WState.readItems { file := file, mmLen := file.length, page, position := 0, needTrim := false, usizeBytes := u, quota := q } (codecs i) = some items →
      WState.readItems { file := c, mmLen := c.length, page, position := 0, needTrim := false, usizeBytes := u, quota := q } (codecs i) = some items := by
    intro items hi
    unfold WState.readItems at hi ⊢
    rcases hw with hw | hw
    · rw [hw]
      split at hi
      · cases hi
      rename_i off hoff
      have he : off = 8 + header file := by
        unfold WState.writeOffset WState.lenOffset at hoff
        simp only [] at hoff
        split at hoff
        · cases hoff
        split at hoff
        · cases hoff
        split at hoff
        · injection hoff with hoff; rw [← hoff]; unfold header; omega
        · cases hoff
      subst he
      simp only [] at hi ⊢
      split at hi
      · rename_i h0; rw [if_pos h0]; exact hi
      · rename_i h0
        rw [if_neg h0]
        split at hi
        · cases hi
        · rw [if_neg (by omega), hsame]; exact hi
    · rw [hw] at hi; cases hi
  split at h
  · cases h
  rename_i o ho
  split at ho
  · cases ho
  rename_i items hi
  rw [hr items hi]
  injection h with h
  injection ho with ho
  subst h; subst ho
  exact ⟨_, rfl, rfl, rfl, rfl⟩

/-- **C94, the proved part.** Take any file a store was opened on - encrypted or not, damaged or not, on a limited disk or not - and any history without `clear_data`, in which the
background thread may fail at any point.  A copy is read from front to back: its first 8 bytes at a moment between two background writes (after `es1`), every other byte at any later moment, also in the
middle of a write, and the end of the file when it is reached.  If the length header of the file was at no moment since below the one read, the copy opens if the
file as it was at that first moment does, and to the same content. -/
theorem C94_partial {codecs : ι → Codec} {i : ι} {page : Nat} {file : Bytes} {u : Nat} {q : Option Nat} {s0 s1 s2 : Inst ι} {es1 es2 : List (Ev ι)}
    {rs1 rs2 : List (Out Unit)} (hopen : openAt codecs i page file u q = some s0) (hrun1 : run codecs s0 es1 = some (s1, rs1))
    (hrun2 : run codecs s1 es2 = some (s2, rs2)) (hclear : ∀ e ∈ es1 ++ es2, e ≠ .clear) {t : Nat → Nat} {c : Bytes}
    (hcopy : Copied s0.disk s2.lp.cb.ws.log t c) (hwhen : t 0 = s1.lp.cb.ws.log.length)
    (hheader : ∀ n, t 0 ≤ n → n ≤ s2.lp.cb.ws.log.length → header s1.disk ≤ header (fileAt s0.disk s2.lp.cb.ws.log n))
    {s' : Inst ι} (hfile : openAt codecs i page s1.disk u q = some s') {S : Store} (hshows : s'.Shows S) :
    ∃ s'', openAt codecs i page c u q = some s'' ∧ s''.kv = s'.kv ∧ s''.Shows S := by
  obtain ⟨hu0, hlog0, hmm0⟩ := uncleared_open hopen
  obtain ⟨hu1, ht1⟩ := uncleared_run es1 hu0 (fun e he => hclear e (List.mem_append_left _ he)) hrun1
  obtain ⟨l1, a1, a2, a3, _⟩ := ht1 hmm0
  obtain ⟨hu2, ht2⟩ := uncleared_run es2 hu1 (fun e he => hclear e (List.mem_append_right _ he)) hrun2
  obtain ⟨l2, b1, b2, b3, b4⟩ := ht2 a3
  rw [hlog0, List.nil_append] at a1
  rw [a1] at b1
  have hd0 : s0.disk = s0.lp.cb.ws.file := by simp [disk, hu0.rem]
  have hd1 : s1.disk = s1.lp.cb.ws.file := by simp [disk, hu1.rem]
  rw [a1] at hwhen
  rw [b1, hd0] at hcopy hheader
  rw [hd1] at hheader hfile
  have hat : ∀ n, fileAt s0.lp.cb.ws.file (l1 ++ l2) (l1.length + n) = fileAt s1.lp.cb.ws.file l2 n := by
    intro n; rw [fileAt_append, a2]
  -- the file as it was is long enough
  have hne : s1.lp.cb.ws.file.length ≠ 0 ∧ 8 + header s1.lp.cb.ws.file ≤ s1.lp.cb.ws.file.length := by
    have h8 : 8 ≤ s0.lp.cb.ws.file.length := by
      unfold openAt openStore at hopen
      simp only [] at hopen
      split at hopen
      · cases hopen
      rename_i o ho
      split at ho
      · cases ho
      split at ho
      · cases ho
      rename_i items hi
      injection ho with ho
      injection hopen with hopen
      subst hopen; subst ho
      unfold WState.readItems WState.writeOffset WState.lenOffset at hi
      simp only [Looper.new] at hi ⊢
      by_cases hlt : (configNew page file).length < 8
      · simp [hlt] at hi
      · omega
    have hlen1 : s0.lp.cb.ws.file.length ≤ s1.lp.cb.ws.file.length := by
      obtain ⟨l1', c1, c2, c3, c4⟩ := ht1 hmm0
      rw [hlog0, List.nil_append] at c1
      have := (c4.keeps (h0 := 0) (by omega) (fun _ _ => Nat.zero_le _) l1'.length).1
      unfold fileAt at this
      rw [List.take_length, c2] at this
      exact this
    have hne : s1.lp.cb.ws.file.length ≠ 0 := by omega
    refine ⟨hne, ?_⟩
    unfold openAt openStore at hfile
    simp only [configNew, hne, if_false] at hfile
    split at hfile
    · cases hfile
    rename_i o ho
    split at ho
    · cases ho
    rename_i items hi
    unfold WState.readItems at hi
    split at hi
    · cases hi
    rename_i off hoff
    have he : off = 8 + header s1.lp.cb.ws.file := by
      unfold WState.writeOffset WState.lenOffset at hoff
      simp only [] at hoff
      split at hoff
      · cases hoff
      split at hoff
      · cases hoff
      split at hoff
      · injection hoff with hoff; rw [← hoff]; unfold header; omega
      · cases hoff
    split at hi
    · rename_i h0
      simp only [WState.lenOffset] at h0
      omega
    · split at hi
      · cases hi
      · rename_i h1; simp only [] at h1; omega
  obtain ⟨hne, hbig⟩ := hne
  have hkeep := b4.keeps (h0 := header s1.lp.cb.ws.file) hbig (by
    intro n hn
    have := hheader (l1.length + n) (by omega) (by simp; omega)
    rw [hat] at this
    exact this)
  -- every time is a time after `l1`
  have htime : ∀ x, ∃ n, t x = l1.length + n := fun x => ⟨t x - l1.length, by have := hcopy.mono 0 x (Nat.zero_le _); omega⟩
  have hlen : s1.lp.cb.ws.file.length ≤ c.length := by
    obtain ⟨n, hn⟩ := htime c.length
    have := hcopy.eof
    rw [hn, hat] at this
    exact Nat.le_trans (hkeep n).1 this
  have hsame : c.take (8 + header s1.lp.cb.ws.file) = s1.lp.cb.ws.file.take (8 + header s1.lp.cb.ws.file) := by
    apply List.ext_getElem?
    intro x
    by_cases hx : x < 8 + header s1.lp.cb.ws.file
    · rw [List.getElem?_take_of_lt hx, List.getElem?_take_of_lt hx, hcopy.bytes x (by omega)]
      by_cases h8 : x < 8
      · rw [hcopy.header x h8, hwhen]
        have := hat 0
        rw [Nat.add_zero] at this
        rw [this, fileAt_zero]
      · obtain ⟨n, hn⟩ := htime x
        rw [hn, hat]
        exact (hkeep n).2 x (by omega) hx
    · rw [List.getElem?_take_eq_none (by omega), List.getElem?_take_eq_none (by omega)]
  obtain ⟨s'', h1, h2, h3, h4⟩ := openAt_same hfile hne hlen hsame
  refine ⟨s'', h1, h2, ?_⟩
  unfold Inst.Shows at hshows ⊢
  unfold getAs at hshows ⊢
  rw [h2, h3, h4]
  exact hshows

/-- **C94, the proved part, for a life of a directory.** A session without `clear_data` whose records fit the file: a copy of the data file, begun between two background writes and read from front to
back while the program goes on, opens and shows the content after some first part of the calls made when it was begun - all of them, if the background thread had
nothing left to do then. -/
theorem C94_partial_fits {page : Nat} (h8 : 8 ≤ page) (h32 : page < 2 ^ 32) {xs : List (Session Unit)} {rss : List (List (Out Unit))} {d : Dir Unit}
    (hl : Life plain page Dir.fresh xs rss d) (hfits : ∀ x ∈ xs, ∀ e ∈ x.evs, e.Fits page) {s0 s1 s2 : Inst Unit} {S : Store}
    {es1 es2 : List (Ev Unit)} {rs1 rs2 : List (Out Unit)} (hopen : openAt plain () page d.file = some s0) (h0 : s0.Shows S)
    (hrun1 : run plain s0 es1 = some (s1, rs1)) (hrun2 : run plain s1 es2 = some (s2, rs2)) (hclear : ∀ e ∈ es1 ++ es2, e ≠ .clear)
    (hfit : ∀ e ∈ es1 ++ es2, e.Fits page) (hroom : page * (callCount xs + (calls (es1 ++ es2)).length) + 8 < 2 ^ 64)
    (hspace : 8 + header d.file + ((calls (es1 ++ es2)).map callSize).sum ≤ if d.file.length = 0 then page else d.file.length)
    {t : Nat → Nat} {c : Bytes} (hcopy : Copied s0.disk s2.lp.cb.ws.log t c) (hwhen : t 0 = s1.lp.cb.ws.log.length) :
    ∃ m ≤ (calls es1).length, (s1.phase = .idle ∧ s1.lp.io = .recv ∧ s1.lp.chan = [] → m = (calls es1).length) ∧
      ∃ s'', openAt plain () page c = some s'' ∧ s''.Shows (S.run ((calls es1).take m)) := by
  have hcalls : calls (es1 ++ es2) = calls es1 ++ calls es2 := by simp [calls, List.filterMap_append]
  have hmul : page * callCount xs ≤ page * (callCount xs + (calls (es1 ++ es2)).length) := Nat.mul_le_mul_left _ (by omega)
  obtain ⟨_, S', hS', hg⟩ := life_survives (E := plainEnv page h8 False) (K := 0) hl (goodDir_fresh _ 0)
    (fun x hx e he => (hfits x hx e he).ok h32) (by rw [Nat.zero_add]; exact plain_room (by omega))
  have hg := hg () (fun _ _ => rfl)
  obtain ⟨sx, hs1, hd0, _⟩ := dinv_open hg
  have hs1' : openAt plain () page d.file = some sx := hs1
  rw [hopen] at hs1'
  injection hs1' with hs1'
  subst hs1'
  have hv : view s0.kv = S' := by simpa [Store.run] using hd0.kvView
  have hSS : S' = S := by rw [← hv]; exact (shows_open hopen).1 h0
  subst hSS
  rw [callSize_eq page h8 False] at hspace
  rw [Nat.zero_add] at hd0
  have hroomE : (plainEnv page h8 False).Room (callCount xs + (calls (es1 ++ es2)).length) := plain_room hroom
  rw [hcalls, List.length_append] at hroomE
  have hok : ∀ e ∈ es1 ++ es2, e.Ok (plainEnv page h8 False) := fun e he => (hfit e he).ok h32
  obtain ⟨items0, _, hr0⟩ := rinv_open (E := plainEnv page h8 False) (i := ()) hg hopen
  obtain ⟨_, hd1⟩ := dinv_run es1 hd0 (fun e he => hok e (List.mem_append_left _ he)) (hroomE.mono (by simp)) hrun1
  rw [List.nil_append] at hd1
  rw [hcalls, List.map_append, List.sum_append] at hspace
  have hr1 := rinv_run hspace es1 hd0 hr0 (fun e he => hok e (List.mem_append_left _ he)) (fun e he => hclear e (List.mem_append_left _ he))
    (hroomE.mono (by simp)) (by omega) hrun1
  rw [List.nil_append] at hr1
  obtain ⟨hu0, hlog0, hmm0⟩ := uncleared_open hopen
  obtain ⟨hu1, ht1⟩ := uncleared_run es1 hu0 (fun e he => hclear e (List.mem_append_left _ he)) hrun1
  obtain ⟨l1, a1, a2, a3, _⟩ := ht1 hmm0
  obtain ⟨l2, b1, b2⟩ := rising_run hspace es2 hd1 hr1 hu1 a3 (fun e he => hok e (List.mem_append_right _ he)) (fun e he => hclear e (List.mem_append_right _ he))
    (hroomE.mono (by omega)) (by omega) hrun2
  rw [hlog0, List.nil_append] at a1
  have hdk0 : s0.disk = s0.lp.cb.ws.file := by simp [disk, hu0.rem]
  have hdk1 : s1.disk = s1.lp.cb.ws.file := by simp [disk, hu1.rem]
  have hhead : ∀ n, t 0 ≤ n → n ≤ s2.lp.cb.ws.log.length → header s1.disk ≤ header (fileAt s0.disk s2.lp.cb.ws.log n) := by
    intro n hn _
    obtain ⟨k, rfl⟩ : ∃ k, n = l1.length + k := ⟨n - l1.length, by rw [hwhen, a1] at hn; omega⟩
    rw [b1, a1, hdk0, fileAt_append, a2, hdk1]
    exact b2 0 k (Nat.zero_le _)
  have hfin : ∀ m, GoodFile (plainEnv page h8 False) crcCodec (callCount xs + (calls es1).length) s1.disk (S'.run ((calls es1).take m)) →
      ∃ s'', openAt plain () page c = some s'' ∧ s''.Shows (S'.run ((calls es1).take m)) := by
    intro m hgf
    obtain ⟨sy, hy1, hy2, _⟩ := dinv_open (E := plainEnv page h8 False) (i := ()) hgf
    have hy1' : openAt plain () page s1.disk = some sy := hy1
    have hvy : view sy.kv = S'.run ((calls es1).take m) := by simpa [Store.run] using hy2.kvView
    obtain ⟨s'', k1, _, k2⟩ := C94_partial hopen hrun1 hrun2 hclear hcopy hwhen hhead hy1' ((shows_open hy1').2 hvy)
    exact ⟨s'', k1, k2⟩
  by_cases hidle : s1.phase = .idle ∧ s1.lp.io = .recv ∧ s1.lp.chan = []
  · obtain ⟨_, hgf⟩ := disk_drained hd1 hu1.clr (drained_at_rest hd1 hidle.1 hidle.2.1 hidle.2.2)
    refine ⟨(calls es1).length, Nat.le_refl _, fun _ => rfl, hfin _ ?_⟩
    rw [List.take_length]
    exact hgf
  · obtain ⟨m, hm, hgf⟩ := disk_prefix hd1 () (fun _ => rfl)
    exact ⟨m, hm, fun h => absurd h hidle, hfin m hgf⟩

/-- A copy read in two pieces: the first `k` bytes after `n` changes, the rest after all of them. -/
theorem copied_two {file : Bytes} {log : List Eff} {n k : Nat} (h8 : 8 ≤ k) (hn : n ≤ log.length) (hk : k ≤ (fileAt file log n).length)
    (hk' : k ≤ (fileAt file log log.length).length) :
    Copied file log (fun x => if x < k then n else log.length) ((fileAt file log n).take k ++ (fileAt file log log.length).drop k) := by
  refine ⟨?_, ?_, ?_, ?_, ?_⟩
  · intro x y hxy; split <;> split <;> omega
  · intro x; split <;> omega
  · intro x hx; rw [if_pos (by omega), if_pos (by omega)]
  · intro x hx
    split
    · rename_i hlt
      rw [List.getElem?_append_left (by simp; omega), List.getElem?_take_of_lt hlt]
    · rename_i hge
      rw [List.getElem?_append_right (by simp; omega), List.getElem?_drop]
      congr 1
      simp only [List.length_take]
      omega
  · have hl : ((fileAt file log n).take k ++ (fileAt file log log.length).drop k).length = (fileAt file log log.length).length := by simp; omega
    rw [hl, if_neg (by omega)]

/-- Three values are written, and the background thread has nothing left to do: the file has room for no fourth. -/
def backupBefore : List (Ev Unit) :=
  fullPut "a" 6 [111, 110, 101, 49] ++ fullPut "b" 6 [107, 101, 101, 112] ++ fullPut "a" 6 [116, 119, 111, 50]

/-- While the copy is made, "a" is put once more. -/
def backupDuring : List (Ev Unit) := fullPut "a" 6 [116, 104, 114, 51]

theorem openAt_flags {codecs : ι → Codec} {i : ι} {page : Nat} {file : Bytes} {u : Nat} {q : Option Nat} {s : Inst ι}
    (h : openAt codecs i page file u q = some s) : s.poisoned = false ∧ s.valid = true := by
  unfold openAt at h
  split at h
  · cases h
  · injection h with h; subst h; exact ⟨rfl, rfl⟩

theorem fullPut_fits {k : String} {t : BitVec 32} {bs : Bytes} {page : Nat} (h : recordSize k t bs ≤ page) :
    ∀ e ∈ fullPut k t bs, e ≠ .clear ∧ e.Fits page := by
  intro e he
  simp only [fullPut, List.mem_cons, List.not_mem_nil, or_false] at he
  rcases he with rfl | rfl | rfl | rfl | rfl | rfl | rfl <;> refine ⟨by simp, ?_⟩ <;> first | exact h | trivial | exact fun l => List.reverse_perm l

/-- **C94 is false.** Three puts have returned, the background thread has written all three and rests, and the copy is begun: it reads the header and the first record.  Then one more `put` of "a" is written, for
which the file is compacted; then the copy reads on to the end.  Every call returns `Ok`; "b" is not touched while the copy is made, and the file shows it before and after; but the copy opens without complaint and
has no "b". -/
theorem C94_refuted : ∃ s0 s1 s2 rs1 rs2 t c s' sb sa, openAt plain () 64 [] = some s0 ∧ run plain s0 backupBefore = some (s1, rs1) ∧
    run plain s1 backupDuring = some (s2, rs2) ∧ (∀ r ∈ rs1 ++ rs2, r = .ok ()) ∧ (s1.phase = .idle ∧ s1.lp.io = .recv ∧ s1.lp.chan = []) ∧
    Copied s0.disk s2.lp.cb.ws.log t c ∧ t 0 = s1.lp.cb.ws.log.length ∧
    openAt plain () 64 s1.disk = some sb ∧ Inst.get sb "b" .byteArray = .ok [107, 101, 101, 112] ∧ openAt plain () 64 s2.disk = some sa ∧ Inst.get sa "b" .byteArray = .ok [107, 101, 101, 112] ∧
    openAt plain () 64 c = some s' ∧ Inst.get s' "b" .byteArray = .err .keyNotFound := by
  have h : (match openAt plain () 64 [] with
      | none => false
      | some s0 => match run plain s0 backupBefore with
        | none => false
        | some (s1, rs1) => match run plain s1 backupDuring with
          | none => false
          | some (s2, rs2) => match openAt plain () 64 s1.disk, openAt plain () 64 s2.disk,
              openAt plain () 64 ((fileAt s0.disk s2.lp.cb.ws.log 6).take 24 ++ (fileAt s0.disk s2.lp.cb.ws.log s2.lp.cb.ws.log.length).drop 24) with
            | some sb, some sa, some s' => decide ((∀ r ∈ rs1 ++ rs2, r = .ok ()) ∧ (s1.phase = .idle ∧ s1.lp.io = .recv ∧ s1.lp.chan = []) ∧
                6 ≤ s2.lp.cb.ws.log.length ∧ 24 ≤ (fileAt s0.disk s2.lp.cb.ws.log 6).length ∧
                24 ≤ (fileAt s0.disk s2.lp.cb.ws.log s2.lp.cb.ws.log.length).length ∧ 6 = s1.lp.cb.ws.log.length ∧
                sb.kv.get "b" = some ⟨"b", 6, [107, 101, 101, 112]⟩ ∧ sa.kv.get "b" = some ⟨"b", 6, [107, 101, 101, 112]⟩ ∧ s'.kv.get "b" = none)
            | _, _, _ => false) = true := by decide +kernel
  have hget : ∀ {f : Bytes} {s : Inst Unit}, openAt plain () 64 f = some s → s.kv.get "b" = some ⟨"b", 6, [107, 101, 101, 112]⟩ →
      Inst.get s "b" .byteArray = .ok [107, 101, 101, 112] := by
    intro f s ho hg
    obtain ⟨hp, hv⟩ := openAt_flags ho
    unfold Inst.get getAs
    rw [hp, hv, hg]
    rfl
  split at h
  · cases h
  rename_i s0 h0
  split at h
  · cases h
  rename_i s1 rs1 h1
  split at h
  · cases h
  rename_i s2 rs2 h2
  split at h
  · rename_i sb sa s' hb ha hc
    simp only [decide_eq_true_eq] at h
    obtain ⟨g1, g2, g3, g4, g5, g6, g7, g8, g9⟩ := h
    refine ⟨s0, s1, s2, rs1, rs2, _, _, s', sb, sa, h0, h1, h2, g1, g2, copied_two (by omega) g3 g4 g5, ?_, hb, hget hb g7, ha, hget ha g8, hc, ?_⟩
    · rw [if_pos (by omega)]; exact g6
    · obtain ⟨hp, hv⟩ := openAt_flags hc
      unfold Inst.get getAs
      rw [hp, hv, g9]
      rfl
  · cases h

/-- A put of a new key, in the same place, with room in the file. -/
def quietBefore : List (Ev Unit) := fullPut "a" 6 [111, 110, 101, 49] ++ fullPut "b" 6 [107, 101, 101, 112]

/-- The hypotheses of `C94_partial_fits` and `C94_partial` can be met: the same copy, with room in the file for the record put meanwhile. -/
example : ∃ s0 s1 s2 rs1 rs2 t c, openAt plain () 64 [] = some s0 ∧ s0.Shows Store.empty ∧ run plain s0 quietBefore = some (s1, rs1) ∧
    run plain s1 backupDuring = some (s2, rs2) ∧ (∀ e ∈ quietBefore ++ backupDuring, e ≠ .clear ∧ e.Fits 64) ∧
    8 + header ([] : Bytes) + ((calls (quietBefore ++ backupDuring)).map callSize).sum ≤ 64 ∧ Copied s0.disk s2.lp.cb.ws.log t c ∧
    t 0 = s1.lp.cb.ws.log.length ∧ s1.lp.cb.ws.log.length < s2.lp.cb.ws.log.length ∧ c ≠ s1.disk ∧ c ≠ s2.disk := by
  have h : (match openAt plain () 64 [] with
      | none => false
      | some s0 => match run plain s0 quietBefore with
        | none => false
        | some (s1, rs1) => match run plain s1 backupDuring with
          | none => false
          | some (s2, rs2) => decide (s1.lp.cb.ws.log.length = 4 ∧ s2.lp.cb.ws.log.length = 6 ∧ 24 ≤ (fileAt s0.disk s2.lp.cb.ws.log 4).length ∧
                24 ≤ (fileAt s0.disk s2.lp.cb.ws.log s2.lp.cb.ws.log.length).length ∧
                (fileAt s0.disk s2.lp.cb.ws.log 4).take 24 ++ (fileAt s0.disk s2.lp.cb.ws.log s2.lp.cb.ws.log.length).drop 24 ≠ s1.disk ∧
                (fileAt s0.disk s2.lp.cb.ws.log 4).take 24 ++ (fileAt s0.disk s2.lp.cb.ws.log s2.lp.cb.ws.log.length).drop 24 ≠ s2.disk)) = true := by decide +kernel
  split at h
  · cases h
  rename_i s0 h0
  split at h
  · cases h
  rename_i s1 rs1 h1
  split at h
  · cases h
  rename_i s2 rs2 h2
  simp only [decide_eq_true_eq] at h
  obtain ⟨g1, g2, g3, g4, g5, g6⟩ := h
  refine ⟨s0, s1, s2, rs1, rs2, _, _, h0, (openAt_nil_shows h0).1, h1, h2, ?_, by decide +kernel, copied_two (by omega) (by omega) g3 g4, ?_, by omega, g5, g6⟩
  · intro e he
    rcases List.mem_append.1 he with he | he
    · rcases List.mem_append.1 he with he | he
      · exact fullPut_fits (by decide +kernel) e he
      · exact fullPut_fits (by decide +kernel) e he
    · exact fullPut_fits (by decide +kernel) e he
  · rw [if_pos (by omega)]; exact g1.symm

end Mmkv
