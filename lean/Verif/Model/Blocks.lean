import Verif.Model.Crash
import Verif.Model.Instance
/-!
# A disk that runs full

`set_len` gives a file a size but no space (src/core/config.rs:21-24, 41): the new pages are holes that read as zeros.  The disk has to find a block for such a page
when something is first stored in it, and here that happens inside a `copy_from_slice` into the mapping (src/core/memory_map.rs:103-104, 109), not inside
a system call that could fail: the system sends the process `SIGBUS`, which ends it.  (`MAP_POPULATE`, src/core/memory_map.rs:28, only reads the pages of a shared
mapping.)  A disk on which `set_len` itself fails is `WState.quota` (Model/Store).

Assumptions: the file system has holes and gives space by blocks of `os` bytes; a block once given to a page stays with it; `memcpy` may touch the blocks of
its range in any order.
-/

namespace Mmkv

/-- Space for the data file: the blocks of it that have some, and how many more the disk can give (src/core/config.rs:21-24, 41). -/
structure Blocks where
  held : List Nat
  free : Nat
deriving DecidableEq, Repr

/-- The first store into a block of the file; `none`: there is no space for it (src/core/memory_map.rs:103-104, 109). -/
def Blocks.touch (d : Blocks) (p : Nat) : Option Blocks :=
  if d.held.contains p then some d
  else if d.free = 0 then none
  else some { held := p :: d.held, free := d.free - 1 }

/-- Stores into several blocks, one after the other (src/core/memory_map.rs:103-104, 109). -/
def Blocks.touchAll (d : Blocks) : List Nat → Option Blocks
  | [] => some d
  | p :: ps => match d.touch p with
    | none => none
    | some d' => d'.touchAll ps

/-- The blocks that `len` bytes at `off` lie in (src/core/memory_map.rs:103-104, 109). -/
def blocksOf (os off len : Nat) : List Nat := if len = 0 then [] else (List.range ((off + len - 1) / os + 1)).drop (off / os)

/-- `OnDisk os d file effs r f`: the stores and resizes `effs` (src/core/memory_map.rs:103-104, 109, src/core/config.rs:41) made on `file` on such a disk
leave `f`; `r` is the space then, or `none` if the process was killed for lack of it. -/
inductive OnDisk (os : Nat) : Blocks → Bytes → List Eff → Option Blocks → Bytes → Prop
  | done (d file) : OnDisk os d file [] (some d) file
  /-- there is space for all blocks of the store -/
  | store {d d' file off bs effs r f} (h : d.touchAll (blocksOf os off bs.length) = some d') (rest : OnDisk os d' (splice file off bs) effs r f) :
      OnDisk os d file (.store off bs :: effs) r f
  /-- there is not: some blocks have been touched, then comes one that gets no space; any of the bytes in blocks with space may have been stored -/
  | killed {d d1 file off bs effs} (ps : List Nat) (p : Nat) (bs' : Bytes) (hps : ∀ q ∈ ps, q ∈ blocksOf os off bs.length) (hd : d.touchAll ps = some d1)
      (hp : p ∈ blocksOf os off bs.length) (hfull : d1.touch p = none) (hlen : bs'.length = bs.length)
      (hmix : ∀ (i : Nat) (x : UInt8), bs'[i]? = some x → file[off + i]? = some x ∨ (bs[i]? = some x ∧ (off + i) / os ∈ d1.held)) :
      OnDisk os d file (.store off bs :: effs) none (splice file off bs')
  /-- a resize takes no space -/
  | setLen {d file n effs r f} (rest : OnDisk os d (Eff.apply file (.setLen n)) effs r f) : OnDisk os d file (.setLen n :: effs) r f

namespace Full
variable {ι : Type}

/-- What happens: something to the store (`Inst.step`), or another program takes or gives back space. -/
inductive DEv (ι : Type) where
  | ev (e : Ev ι)
  | other (free : Nat)

/-- A process with one store on such a disk, or what it left when it was killed (`[]`: no file). -/
inductive Status (ι : Type) where
  | alive (s : Inst ι) (d : Blocks)
  | killed (file : Bytes)

/-- The stores and resizes of one step of a store: the ones its log gained (a store made anew by `clear_data` starts with an empty log, src/mmkv.rs:212-219). -/
def effects (s s' : Inst ι) : List Eff := s'.lp.cb.ws.log.drop s.lp.cb.ws.log.length

/-- When `clear_data` has made a new file (src/mmkv.rs:212-219) it has no space yet, and the old one, removed and no longer mapped, has given back its blocks. -/
def spaceAfter (s s' : Inst ι) (d : Blocks) : Blocks := if s.lp.cb.removed && !s'.lp.cb.removed then { held := [], free := d.held.length + d.free } else d

/-- A run of `Inst.step` on such a disk: the end, and the results of the calls that returned. -/
inductive Run (codecs : ι → Codec) (os : Nat) : Inst ι → Blocks → List (DEv ι) → Status ι → List (Out Unit) → Prop
  | nil (s d) : Run codecs os s d [] (.alive s d) []
  | step {s s' d d' f e r es st rs} (h : Inst.step codecs s e = some (s', r)) (hd : OnDisk os d s.lp.cb.ws.file (effects s s') (some d') f)
      (rest : Run codecs os s' (spaceAfter s s' d') es st rs) : Run codecs os s d (.ev e :: es) st (r.toList ++ rs)
  | killed {s s' d f e r es} (h : Inst.step codecs s e = some (s', r)) (hd : OnDisk os d s.lp.cb.ws.file (effects s s') none f) :
      Run codecs os s d (.ev e :: es) (.killed (if s.lp.cb.removed then [] else f)) []
  | other {s d n es st rs} (rest : Run codecs os s { d with free := n } es st rs) : Run codecs os s d (.other n :: es) st rs

end Full
end Mmkv
