import Verif.Model.Instance
/-!
# Several lives of one directory

A session opens the directory, runs, and ends: cleanly (the last handle is dropped and the IO thread joined) or by the
death of the process at any point between two steps of the background thread.  The next session opens the file it
finds.
-/

namespace Mmkv
variable {ι : Type}

/-- What a directory holds between two sessions: the data file (`[]`: missing or empty, src/core/config.rs:23-26) and,
with encryption, the nonce file (src/core/encrypt.rs:56-103): `some i` when it exists, which fixes key and nonce. -/
structure Dir (ι : Type) where
  file : Bytes
  idx : Option ι

/-- A directory nobody has used yet. -/
def Dir.fresh : Dir ι := ⟨[], none⟩

/-- What a store leaves behind if the process ends now. -/
def Inst.dir (s : Inst ι) : Dir ι := ⟨s.disk, if s.lp.cb.removed then none else some s.idx⟩

/-- One session: the key and nonce in use, what happens, and whether it ends by a clean close. -/
structure Session (ι : Type) where
  i : ι
  evs : List (Ev ι)
  clean : Bool

/-- `Life codecs page d xs rss d'`: from directory `d`, the sessions `xs` can happen one after the other, their calls
return `rss`, and they leave directory `d'`. -/
inductive Life (codecs : ι → Codec) (page : Nat) : Dir ι → List (Session ι) → List (List (Out Unit)) → Dir ι → Prop
  | nil (d) : Life codecs page d [] [] d
  | cons {d d' x xs s s' rs rss} (hi : ∀ j, d.idx = some j → x.i = j)
      (ho : Inst.openAt codecs x.i page d.file = some s) (hr : Inst.run codecs s x.evs = some (s', rs))
      (hc : x.clean = true → s'.closedOk) (rest : Life codecs page s'.dir xs rss d') :
      Life codecs page d (x :: xs) (rs :: rss) d'

end Mmkv
