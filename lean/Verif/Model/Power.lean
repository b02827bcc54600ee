import Verif.Model.Crash
import Verif.Model.Encrypt
/-!
# Power failure

The page cache is lost; what the system had not written back is gone.  The code forces data out at three points:
`sync_all` in `Config::new` and at the start of `Config::expand` (src/core/config.rs:26 and 41), and the `msync` of
the first `write_offset()` bytes when a mapping is dropped (src/core/memory_map.rs:85-89: after an expansion and when
the store is closed).  Everything else is written back page by page, in any order, whenever the system likes.

Assumptions: a page is written back atomically; `sync_all` and `msync(MS_SYNC)` make the content they cover, the size of
the file and its directory entry durable.
-/

namespace Mmkv

/-- The content of page `p` of a file, with pages of `os` bytes. -/
def pageOf (os p : Nat) (file : Bytes) : Bytes := (file.drop (p * os)).take os

/-- `PowerLoss os base effs f`: `base` was durable, then the stores `effs` were made into the mapping, then the power
failed, and the file is now `f`: each page is as it was after some of the stores (possibly none, possibly all),
independently of the others. -/
def PowerLoss (os : Nat) (base : Bytes) (effs : List Eff) (f : Bytes) : Prop :=
  f.length = base.length ∧
    ∀ p, ∃ k ≤ effs.length, pageOf os p f = pageOf os p ((effs.take k).foldl Eff.apply base)

/-- The effects since the last expansion: all earlier ones are durable (src/core/config.rs:41, src/core/writer.rs:101). -/
def sinceExpand (log : List Eff) : List Eff :=
  (log.reverse.takeWhile fun e => match e with | .store .. => true | .setLen _ => false).reverse

/-- What is durable of a file that had the content `opened` when it was opened (src/core/config.rs:26) and had the
effects `log` made on it since. -/
def durable (opened : Bytes) (log : List Eff) : Bytes :=
  (log.take (log.length - (sinceExpand log).length)).foldl Eff.apply opened

/-- A data file after the store was closed and the power failed: the `msync` of src/core/memory_map.rs:87 covered the
length header and the content. -/
def ClosedLoss (file f : Bytes) : Prop :=
  f.length = file.length ∧ f.take (beVal (file.take 8) + 8) = file.take (beVal (file.take 8) + 8)

/-- The nonce file after a power failure: it is written without any sync (src/core/encrypt.rs:64-81), so it may still be
missing or shorter than it was. -/
def NonceLoss (nonce : Bytes) (left : Option Bytes) : Prop := left = none ∨ ∃ n, left = some (nonce.take n)

end Mmkv
