import Verif.Model.EncWorld
import Verif.Model.OpenSteps
/-!
# An app that is started again and again

Several processes one after the other on the same directories.  What is in memory is lost between two of them; what is in the files stays, because a store
writes through a shared mapping (src/core/memory_map.rs:31), which the kernel keeps when a process dies.
-/

namespace Mmkv
open World

/-- The data files at the start of a process (no source lines): each name is that of one file, and the files are there. -/
structure Files (names : Nat → Option Nat) (inodes : List Bytes) : Prop where
  exist : ∀ f n, names f = some n → n < inodes.length
  inj : ∀ f g n, names f = some n → names g = some n → f = g

/-- The bytes of a data file that its eight byte header says are records (src/core/memory_map.rs:116-119, src/core/iter.rs). -/
def covered (file : Bytes) : Bytes := (file.drop 8).take (beVal (file.take 8))

/-- What may be left of a data file when the process dies inside a background write that would turn `F` into `F'` (src/core/memory_map.rs:97-105, src/core/writer.rs:39-97): a file with
the records of `F`; with those of `F'`; or with those of `F` and a broken one, of at most a page, which the header already covers.  Simplified: a death inside an append can also leave the header
half-stored, or a last record whose length field is wrong or whose checksum happens to be right (C11); one inside a compaction fewer records (C12). -/
inductive Survives (page : Nat) (broken : Bytes → Prop) (F F' : Bytes) : Bytes → Prop
  | old {x : Bytes} (head : x.take 8 = F.take 8) (records : covered x = covered F) : Survives page broken F F' x
  | new {x : Bytes} (head : x.take 8 = F'.take 8) (records : covered x = covered F') : Survives page broken F F' x
  | torn {x t : Bytes} (head : beVal (x.take 8) = (covered F).length + t.length) (records : covered x = covered F ++ t) (size : t.length ≤ page) (hb : broken t) :
      Survives page broken F F' x

/-- A plain record that was not stored completely: its length field was, its checksum is wrong (src/core/crc.rs:11-44). -/
def crcBroken (t : Bytes) : Prop := 5 ≤ t.length ∧ t.take 4 = beBytes 4 (t.length - 4) ∧ crc8 ((t.drop 4).take (t.length - 5)) ≠ t.getD (t.length - 1) 0

/-- A record that is there to its length but that the reader refuses and reads past, wherever in the file it stands (src/core/encrypt.rs:144-165, src/core/iter.rs). -/
def refused (c : Codec) (t : Bytes) : Prop := t ≠ [] ∧ ∀ pos rest, c.dec (t ++ rest) pos = .ok none t.length

/-- What the process leaves of the data file of directory `f` when it ends: the file as it is, or, if a background thread (src/core/io_looper.rs:112-131) was writing it, what may be left of that. -/
inductive LeavesFile {ι : Type} (S : Sys ι) (broken : Bytes → Prop) (s : Proc ι) (f : Nat) : Option Bytes → Prop
  | between : LeavesFile S broken s f (s.w.fileAt f)
  | inside {o : Nat} {ob : Obj ι} {ord : List Buffer → List Buffer} {s' : Proc ι} {v : Option (Spec.HEv POp PRes)} {F x : Bytes}
      (hob : s.w.objs[o]? = some ob) (hf : S.fileOf ob.dir = f) (perm : ∀ l, (ord l).Perm l) (before : s.w.fileAt f = some F)
      (step : s.step S (.io o ord) = some (s', v)) (hx : Survives S.page broken F ((s'.w.fileAt f).getD []) x) : LeavesFile S broken s f (some x)

/-- Plain stores.  A process (src/mmkv.rs, `Proc`) starts on the files `names`, `inodes`, takes some steps, observing a history, and ends: it exits or is killed, whatever
its threads are doing; the next one starts on the files as they are then.  (That nothing runs when a process ends, no `Drop` and no `atexit`, is the point:
src/mmkv.rs:43-55 and src/core/io_looper.rs:93-96 run only for handles that were dropped.)  The end may fall inside a `new` (`found`: `Config::new` makes the data file in
two system calls, src/core/config.rs:16-26), and inside background writes (`left`). -/
inductive Restarts (S : Sys Unit) : (Nat → Option Nat) → List Bytes → List (List (PrEv Unit)) → List (List (Spec.HEv POp PRes)) → (Nat → Option Nat) → List Bytes → Prop
  | nil (names : Nat → Option Nat) (inodes : List Bytes) : Restarts S names inodes [] [] names inodes
  | cons {names names1 names' : Nat → Option Nat} {inodes inodes1 inodes' : List Bytes} {es : List (PrEv Unit)} {ess : List (List (PrEv Unit))} {s : Proc Unit}
      {h : List (Spec.HEv POp PRes)} {hs : List (List (Spec.HEv POp PRes))}
      (run : Proc.run S { w := start names inodes } es = some (s, h)) (files : Files names1 inodes1)
      (data : Nat → Option Bytes) (left : ∀ f, LeavesFile S crcBroken s f (data f))
      (found : ∀ f, ∃ n, (⟨(start names1 inodes1 : World Unit).fileAt f, n⟩ : DirDisk) ∈ openStates S.page ⟨data f, n⟩)
      (rest : Restarts S names1 inodes1 ess hs names' inodes') :
      Restarts S names inodes (es :: ess) (h :: hs) names' inodes'

/-- Encrypted stores, with the nonce files of the directories (src/core/encrypt.rs:45-52).  Of a directory whose data file is gone (a `clear_data` was under way,
src/mmkv.rs:196-219) the next process may find the nonce file in any state: the two are removed one after the other (src/core/mmkv_impl.rs:106-111).
Then the end may fall inside a `new`, of any directory, after any of its system calls (`encOpenStates`: src/core/config.rs:16-26, src/core/encrypt.rs:57-103), and inside background writes
(`hdata`; a broken record is one that does not decrypt with the key and the nonce of the directory: `zeros` stands for random bytes nobody needs, there is a nonce file). -/
inductive EncRestarts (S : Sys (Bytes × Bytes)) (keys : Nat → String) : (Nat → Option Nat) → List Bytes → (Nat → Option Bytes) → List (List (PrEv Bytes)) →
    List (List (Spec.HEv POp PRes)) → (Nat → Option Nat) → List Bytes → (Nat → Option Bytes) → Prop
  | nil (names : Nat → Option Nat) (inodes : List Bytes) (nonces : Nat → Option Bytes) : EncRestarts S keys names inodes nonces [] [] names inodes nonces
  | cons {names names1 names' : Nat → Option Nat} {inodes inodes1 inodes' : List Bytes} {nonces left nonces1 nonces' : Nat → Option Bytes} {es : List (PrEv Bytes)}
      {ess : List (List (PrEv Bytes))} {s : EncThreads} {h : List (Spec.HEv POp PRes)} {hs : List (List (Spec.HEv POp PRes))}
      (run : EncThreads.run S keys ⟨{ w := start names inodes }, nonces⟩ es = some (s, h))
      (hleft : ∀ f, left f = s.nonces f ∨ s.p.w.fileAt f = none)
      (files : Files names1 inodes1)
      (data : Nat → Option Bytes) (hdata : ∀ f, LeavesFile S (refused (S.codecs (openIdx keys s.nonces f (zeros nonceLen)))) s.p f (data f))
      (found : ∀ f, ∃ rand, rand.length = nonceLen ∧
        (⟨(start names1 inodes1 : World (Bytes × Bytes)).fileAt f, nonces1 f⟩ : DirDisk) ∈ encOpenStates S.page (keys f) true rand ⟨data f, left f⟩)
      (rest : EncRestarts S keys names1 inodes1 nonces1 ess hs names' inodes' nonces') :
      EncRestarts S keys names inodes nonces (es :: ess) (h :: hs) names' inodes' nonces'

end Mmkv
