import Verif.Model.Codec
/-!
# The data file: src/core/memory_map.rs, src/core/iter.rs, src/core/config.rs, src/core/writer.rs

State and functions of one `IOWriter` together with the file it has mapped.
-/

namespace Mmkv

/-- A primitive change of the data file, recorded for the crash theorems: a `copy_from_slice` into the mapping
or a `set_len`. -/
inductive Eff where
  | store (off : Nat) (bytes : Bytes)
  | setLen (len : Nat)
deriving DecidableEq, Repr

/-- `n` zero bytes: what `set_len` appends. -/
def zeros (n : Nat) : Bytes := List.replicate n 0

/-- Overwriting part of a byte string in place. -/
def splice (file : Bytes) (off : Nat) (bs : Bytes) : Bytes :=
  file.take off ++ bs ++ file.drop (off + bs.length)

/-- Result of a primitive change on the file. -/
def Eff.apply (file : Bytes) : Eff → Bytes
  | .store off bs => splice file off bs
  | .setLen n => file.take n ++ zeros (n - file.length)

/-- `IOWriter` (src/core/writer.rs:9-16) with its `Config` (src/core/config.rs:8-12), its `MemoryMap`
(src/core/memory_map.rs:81-83) and the content of the mapped file.

`file` is the content of the (shared) file; `mmLen` the length of this writer's mapping
(`RawMmap::len`, src/core/memory_map.rs:16-19); `page` is `Config::page_size`; `usizeBytes` the size of
`usize` on the target; `quota` the largest file size the system grants (`none`: no limit), above
which `set_len(..).unwrap()` panics; `log` is a ghost record of the changes made to the file. -/
structure WState where
  file : Bytes
  mmLen : Nat
  page : Nat
  position : Nat
  needTrim : Bool
  usizeBytes : Nat := 8
  quota : Option Nat := none
  log : List Eff := []
deriving DecidableEq, Repr

namespace WState

/-- `LEN_OFFSET`, src/core/memory_map.rs:7. -/
def lenOffset : Nat := 8

/-- `self.0[off..off+len].copy_from_slice(bytes)`: panics when the range leaves the mapping. -/
def store (s : WState) (off : Nat) (bs : Bytes) : Run WState :=
  if off + bs.length ≤ s.mmLen then
    .done { s with file := splice s.file off bs, log := s.log ++ [.store off bs] }
  else .panic s

/-- `MemoryMap::write_offset`, src/core/memory_map.rs:117-119; `none` is a panic: the mapping is shorter
than 8 bytes, the 8-byte slice does not fit `[u8; size_of::<usize>()]`, or the addition overflows
(debug build; a release build wraps). -/
def writeOffset (s : WState) : Option Nat :=
  if s.mmLen < lenOffset then none
  else if s.usizeBytes ≠ lenOffset then none
  else
    let h := beVal (s.file.take lenOffset)
    if h + lenOffset < 2 ^ 64 then some (h + lenOffset) else none

/-- Writing the length header, src/core/memory_map.rs:103 and 109: `copy_from_slice` panics when the
`usize` does not have exactly 8 bytes. -/
def storeLen (s : WState) (len : Nat) : Run WState :=
  if s.usizeBytes ≠ lenOffset then .panic s
  else s.store 0 (beBytes 8 len)

/-- `MemoryMap::append`, src/core/memory_map.rs:97-105: the header is written before the data. -/
def append (s : WState) (value : Bytes) : Run WState :=
  match s.writeOffset with
  | none => .panic s
  | some start =>
    let contentLen := start - lenOffset
    let newContentLen := value.length + contentLen
    (s.storeLen newContentLen).andThen fun s => s.store start value

/-- `MemoryMap::reset`, src/core/memory_map.rs:107-110. -/
def reset (s : WState) : Run WState := s.storeLen 0

/-- `Config::expand` (src/core/config.rs:36-49) and `IOWriter::expand` (src/core/writer.rs:99-102): the file
grows by one page and is mapped again in full.  Simplification: `sync_all`, `mmap` and the `msync` of the
dropped old mapping are taken to succeed; `set_len` fails (and `unwrap` panics) only above the quota. -/
def expand (s : WState) : Run WState :=
  let n := s.file.length + s.page
  if s.quota.all (fun q => n ≤ q) then
    .done { s with file := s.file ++ zeros s.page, mmLen := n, log := s.log ++ [.setLen n] }
  else .panic s

end WState

/-- `Iter::next` repeated, src/core/iter.rs:62-79, on the bytes from `start` to `end`; `none` is a panic in
`decode`; an `Err` from `decode` ends the iteration.  Each step drops `result.len` bytes; running out of fuel
(a decoder reporting length 0, i.e. an endless loop) is also `none`, and proved not to happen. -/
def iterLoop (c : Codec) : (fuel : Nat) → (position : Nat) → Bytes → Option (List (Option Buffer))
  | _, _, [] => some []
  | 0, _, _ :: _ => none
  | fuel + 1, position, b :: bs =>
    match c.dec (b :: bs) position with
    | .panic => none
    | .err _ => some []
    | .ok buffer len => (iterLoop c fuel (position + 1) ((b :: bs).drop len)).map (buffer :: ·)

/-- The closure in `Iter::into_map`, src/core/iter.rs:42-51. -/
def mapStep (m : KvMap Buffer) : Option Buffer → KvMap Buffer
  | none => m
  | some data => if data.isDeleting then m.erase data.key else m.insert data.key data

/-- `Iter::into_map`, src/core/iter.rs:39-53: the map and the number of items. -/
def intoMap (items : List (Option Buffer)) : KvMap Buffer × Nat :=
  (items.foldl mapStep [], items.length)

namespace WState

/-- `mm.iter(decode).into_map()`, src/core/iter.rs:18-54: `none` is a panic. -/
def readItems (s : WState) (c : Codec) : Option (List (Option Buffer)) :=
  match s.writeOffset with
  | none => none
  | some endOff =>
    if endOff ≤ lenOffset then some []
    else if s.mmLen < endOff then none
    else
      let content := (s.file.take endOff).drop lenOffset
      iterLoop c content.length 0 content

/-- The rewrite loop of a compaction, src/core/writer.rs:75-82.  `maxLen` is the length of the mapping when
`write` was called; it is *not* updated after an expansion (src/core/writer.rs:45 and 77). -/
def trimLoop (c : Codec) (maxLen : Nat) : List Buffer → WState → Run WState
  | [], s => .done s
  | b :: rest, s =>
    match c.enc b s.position with
    | none => .panic s
    | some bytes =>
      match s.writeOffset with
      | none => .panic s
      | some off =>
        (((if off + bytes.length > maxLen then s.expand else .done s).andThen
            fun s => s.append bytes).andThen
          fun s => .done { s with position := s.position + 1 }).andThen
          fun s => trimLoop c maxLen rest s

/-- `IOWriter::write`, src/core/writer.rs:39-97.  `order` is the order in which `snapshot.values()` yields
(any permutation).  `position` is a `u32` in the code; here it is unbounded (it is only used by the
encrypting codec, which stops at `2^32 - 1`). -/
def write (c : Codec) (order : List Buffer → List Buffer) (buffer : Buffer) (duplicated : Bool)
    (s : WState) : Run WState :=
  match c.enc buffer s.position with
  | none => .panic s
  | some data =>
    match s.writeOffset with
    | none => .panic s
    | some off =>
      let targetEnd := data.length + off
      let maxLen := s.mmLen
      let s := if duplicated then { s with needTrim := true } else s
      if targetEnd ≤ maxLen then
        (s.append data).andThen fun s => .done { s with position := s.position + 1 }
      else if s.needTrim then
        match s.readItems c with
        | none => .panic s
        | some items =>
          let snapshot := mapStep (intoMap items).1 (some buffer)
          (s.reset.andThen fun s =>
            trimLoop c maxLen (order snapshot.values) { s with position := 0 }).andThen
            fun s => .done { s with needTrim := false }
      else
        (s.expand.andThen fun s => s.append data).andThen
          fun s => .done { s with position := s.position + 1 }

end WState

/-- `Config::new`, src/core/config.rs:15-34: an empty (or just created) file gets one page of zeros. -/
def configNew (page : Nat) (file : Bytes) : Bytes := if file.length = 0 then zeros page else file

/-- What opening found: the map read from the file and the writer set up on it. -/
structure Opened where
  kv : KvMap Buffer
  ws : WState
deriving DecidableEq, Repr

/-- `Config::new` + `MmkvImpl::new`, src/core/config.rs:15-34 and src/core/mmkv_impl.rs:28-63, on a data file
with the given content; `none` is a panic.  Simplification: `mmap` succeeds on a non-empty file and fails
(`unwrap`) on an empty one. -/
def openStore (c : Codec) (page : Nat) (file : Bytes) (usizeBytes : Nat := 8) (quota : Option Nat := none) :
    Option Opened :=
  let file := configNew page file
  if file.length = 0 then none
  else
    let s : WState := { file, mmLen := file.length, page, position := 0, needTrim := false, usizeBytes, quota }
    match s.readItems c with
    | none => none
    | some items =>
      let (kv, position) := intoMap items
      some ⟨kv, { s with position }⟩

end Mmkv
