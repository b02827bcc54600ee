import Verif.Model.Store
/-!
# Copying the data file of a store that is in use

A backup tool reads the file from front to back with `read`, while the background thread of the store goes on storing into its shared mapping
(`MAP_SHARED`, src/core/memory_map.rs:28; a `read` sees those stores).  Nothing in the code takes a lock a reader of the file could honour
(src/core/config.rs:15-34 opens it without one).
-/

namespace Mmkv

/-- The content of the file after the first `n` of the changes `log` (stores into the mapping and resizes, Verif/Model/Store.lean). -/
def fileAt (file : Bytes) (log : List Eff) (n : Nat) : Bytes := (log.take n).foldl Eff.apply file

/-- `Copied file log t c`: `c` is a copy made while `file` went through the changes `log`; the byte at offset `x` was read after `t x` of them, and the
end of the file was found after `t c.length`.  The first 8 bytes (the length header, src/core/memory_map.rs:7) are read at once. -/
structure Copied (file : Bytes) (log : List Eff) (t : Nat → Nat) (c : Bytes) : Prop where
  mono : ∀ x y, x ≤ y → t x ≤ t y
  upto : ∀ x, t x ≤ log.length
  header : ∀ x < 8, t x = t 0
  bytes : ∀ x < c.length, c[x]? = (fileAt file log (t x))[x]?
  eof : (fileAt file log (t c.length)).length ≤ c.length

end Mmkv
