import Verif.Model.Instance
/-!
# Build profiles

What the compiler makes of the same source: a debug build checks integer arithmetic and panics on overflow, a release build wraps; and the libraries shipped for
Android and iOS are built with `panic = 'abort'` (.cargo/config.toml:5-10, build_android.sh:31, 35, build_apple.sh:12), where a panic of any thread ends the process, while
elsewhere it unwinds.  The rest of the model reads additions as on `Nat` (each place says which build that is); here every addition, subtraction and counter of the code is the
machine's.  Slices are shorter than 2^63 bytes in Rust, so lengths of vectors and of the mapping need no wrapping themselves.
-/

namespace Mmkv
open WState (lenOffset)
variable {ι : Type}

/-- Overflow checks (`debug_assertions`), and whether a panic unwinds (.cargo/config.toml:5-10). -/
structure Build where
  checks : Bool
  unwind : Bool
deriving DecidableEq, Repr

namespace Build

/-- `cargo build`. -/
def debug : Build := ⟨true, true⟩
/-- A release build of a program that depends on the crate (profiles of dependencies are not used). -/
def release : Build := ⟨false, true⟩
/-- The Android and iOS libraries, .cargo/config.toml:5-10. -/
def shipped : Build := ⟨false, false⟩

/-- `x + y` at an unsigned type with `n` values; `none` is a panic. -/
def add (b : Build) (n x y : Nat) : Option Nat := if x + y < n then some (x + y) else if b.checks then none else some ((x + y) % n)

/-- `x - y` at an unsigned type with `n` values; `none` is a panic. -/
def sub (b : Build) (n x y : Nat) : Option Nat := if y ≤ x then some (x - y) else if b.checks then none else some (x + n - y)

/-- `CrcEncoderDecoder::encode_to_bytes`, src/core/crc.rs:14-22: `bytes_to_write.len() as u32 + 1`. -/
def crcEnc (b : Build) (buf : Buffer) (_position : Nat) : Option Bytes :=
  let body := kvToBytes buf
  match b.add (2 ^ 32) (body.length % 2 ^ 32) 1 with
  | none => none
  | some len => some (beBytes 4 len ++ body ++ [crc8 body])

/-- `CrcEncoderDecoder::decode_bytes`, src/core/crc.rs:26-48: `offset as u32 + item_len` (line 30). -/
def crcDec (b : Build) (data : Bytes) (_position : Nat) : DecRes :=
  if data.length < 4 then .panic
  else
    let itemLen := beVal (data.take 4)
    if itemLen = 0 then .panic
    else if data.length < 4 + itemLen - 1 then .panic
    else match b.add (2 ^ 32) 4 itemLen with
      | none => .panic
      | some readLen =>
        if data.length < 4 + itemLen then .panic
        else
          let body := (data.drop 4).take (itemLen - 1)
          let sum := data.getD (4 + itemLen - 1) 0
          .ok (if crc8 body = sum then kvFromBytes body else none) readLen

/-- The default codec, src/core/mmkv_impl.rs:34-35 and 39-40. -/
def crcCodec (b : Build) : Codec := ⟨b.crcEnc, b.crcDec⟩

/-- `Encryptor::decode_bytes`, src/core/encrypt.rs:144-165: `data_offset as u32 + item_len` (line 149). -/
def aeadDec (b : Build) (S : Stream) (data : Bytes) (position : Nat) : DecRes :=
  if data.length < 4 then .panic
  else
    let itemLen := beVal (data.take 4)
    if data.length < 4 + itemLen then .panic
    else match b.add (2 ^ 32) 4 itemLen with
      | none => .panic
      | some readLen =>
        let body := (data.drop 4).take itemLen
        .ok (match S.decrypt body position with
          | some plain => kvFromBytes plain
          | none => none) readLen

/-- The codec of the `encryption` feature, src/core/mmkv_impl.rs:30-38; `encode_to_bytes` (src/core/encrypt.rs:133-140) only casts. -/
def aeadCodec (b : Build) (S : Stream) : Codec := ⟨aeadEnc S, b.aeadDec S⟩

/-- `MemoryMap::write_offset`, src/core/memory_map.rs:117-119. -/
def writeOffset (b : Build) (s : WState) : Option Nat :=
  if s.mmLen < lenOffset then none
  else if s.usizeBytes ≠ lenOffset then none
  else b.add (2 ^ 64) (beVal (s.file.take lenOffset)) lenOffset

/-- `MemoryMap::append`, src/core/memory_map.rs:97-105: `self.0[start..end]` panics when `end` has wrapped below `start` or is past the mapping. -/
def append (b : Build) (s : WState) (value : Bytes) : Run WState :=
  match b.writeOffset s with
  | none => .panic s
  | some start =>
    match b.sub (2 ^ 64) start lenOffset, b.add (2 ^ 64) value.length start with
    | some contentLen, some endOff =>
      match b.add (2 ^ 64) value.length contentLen with
      | some newContentLen => (s.storeLen newContentLen).andThen fun s => if start ≤ endOff then s.store start value else .panic s
      | none => .panic s
    | _, _ => .panic s

/-- `Config::expand` and `IOWriter::expand`, src/core/config.rs:36-49, src/core/writer.rs:99-102: `file_size + self.page_size`. -/
def expand (b : Build) (s : WState) : Run WState :=
  match b.add (2 ^ 64) s.file.length s.page with
  | none => .panic s
  | some _ => s.expand

/-- `Iter::next` repeated, src/core/iter.rs:62-79: `self.position += 1` (a `u32`).  Running out of fuel is a decoder that reports length 0 again and again, an
endless loop. -/
def iterLoop (b : Build) (c : Codec) : (fuel : Nat) → (position : Nat) → Bytes → Option (List (Option Buffer))
  | _, _, [] => some []
  | 0, _, _ :: _ => none
  | fuel + 1, position, x :: bs =>
    match c.dec (x :: bs) position with
    | .panic => none
    | .err _ => some []
    | .ok buffer len => match b.add (2 ^ 32) position 1 with
      | none => none
      | some position' => (iterLoop b c fuel position' ((x :: bs).drop len)).map (buffer :: ·)

/-- `mm.iter(decode).into_map()`, src/core/iter.rs:18-54: `start >= end` ends it. -/
def readItems (b : Build) (c : Codec) (s : WState) : Option (List (Option Buffer)) :=
  match b.writeOffset s with
  | none => none
  | some endOff =>
    if endOff ≤ lenOffset then some []
    else if s.mmLen < endOff then none
    else
      let content := (s.file.take endOff).drop lenOffset
      iterLoop b c content.length 0 content

/-- `self.position += 1`, src/core/writer.rs:51, 81, 95. -/
def bump (b : Build) (s : WState) : Run WState :=
  match b.add (2 ^ 32) s.position 1 with
  | none => .panic s
  | some p => .done { s with position := p }

/-- The rewrite loop of a compaction, src/core/writer.rs:75-82. -/
def trimLoop (b : Build) (c : Codec) (maxLen : Nat) : List Buffer → WState → Run WState
  | [], s => .done s
  | buf :: rest, s =>
    match c.enc buf s.position with
    | none => .panic s
    | some bytes =>
      match b.writeOffset s with
      | none => .panic s
      | some off =>
        match b.add (2 ^ 64) off bytes.length with
        | none => .panic s
        | some e =>
          (((if e > maxLen then b.expand s else .done s).andThen fun s => b.append s bytes).andThen fun s => b.bump s).andThen
            fun s => trimLoop b c maxLen rest s

/-- `IOWriter::write`, src/core/writer.rs:39-97. -/
def write (b : Build) (c : Codec) (order : List Buffer → List Buffer) (buffer : Buffer) (duplicated : Bool) (s : WState) : Run WState :=
  match c.enc buffer s.position with
  | none => .panic s
  | some data =>
    match b.writeOffset s with
    | none => .panic s
    | some off =>
      match b.add (2 ^ 64) data.length off with
      | none => .panic s
      | some targetEnd =>
        let maxLen := s.mmLen
        let s := if duplicated then { s with needTrim := true } else s
        if targetEnd ≤ maxLen then (b.append s data).andThen fun s => b.bump s
        else if s.needTrim then
          match b.readItems c s with
          | none => .panic s
          | some items =>
            let snapshot := mapStep (intoMap items).1 (some buffer)
            (s.reset.andThen fun s => trimLoop b c maxLen (order snapshot.values) { s with position := 0 }).andThen fun s => .done { s with needTrim := false }
        else ((b.expand s).andThen fun s => b.append s data).andThen fun s => b.bump s

/-- `Config::new` + `MmkvImpl::new`, src/core/config.rs:15-34 and src/core/mmkv_impl.rs:28-63; `iter_count` is a `u32` (src/core/iter.rs:40, 43). -/
def openStore (b : Build) (c : Codec) (page : Nat) (file : Bytes) (usizeBytes : Nat := 8) (quota : Option Nat := none) : Option Opened :=
  let file := configNew page file
  if file.length = 0 then none
  else
    let s : WState := { file, mmLen := file.length, page, position := 0, needTrim := false, usizeBytes, quota }
    match b.readItems c s with
    | none => none
    | some items => some ⟨(intoMap items).1, { s with position := items.length % 2 ^ 32 }⟩

/-- `MmkvImpl::new` on the file content `file`, src/core/mmkv_impl.rs:28-63; `none` is a panic. -/
def openAt (b : Build) (codecs : ι → Codec) (i : ι) (page : Nat) (file : Bytes) (usizeBytes : Nat := 8) (quota : Option Nat := none) : Option (Inst ι) :=
  match b.openStore (codecs i) page file usizeBytes quota with
  | none => none
  | some o => some { idx := i, kv := o.kv, lp := Looper.new { ws := o.ws } }

/-- Running a job, src/core/mmkv_impl.rs:71-72, 94-95, 107-112. -/
def execJob (b : Build) (c : Codec) (order : List Buffer → List Buffer) : Job → Cb → Run Cb
  | .write buf dup, cb =>
    match b.write c order buf dup cb.ws with
    | .done ws => .done { cb with ws := ws }
    | .panic ws => .panic { cb with ws := ws }
  | .remove, cb => .done { cb with removed := true }

/-- One event of a store (`Inst.step`): the background thread and the re-creation in `clear_data` (src/mmkv.rs:212-219) are where arithmetic is done. -/
def step (b : Build) (codecs : ι → Codec) (s : Inst ι) : Ev ι → Option (Inst ι × Option (Out Unit))
  | .io o =>
    match Looper.ioStep (fun o j cb => b.execJob (codecs s.idx) o j cb) o s.lp with
    | none => none
    | some lp => some ({ s with lp := lp }, none)
  | .api i =>
    if s.phase = .clrOpen then
      match b.openAt codecs (if s.lp.cb.removed then i else s.idx) s.lp.cb.ws.page s.disk s.lp.cb.ws.usizeBytes s.lp.cb.ws.quota with
      | none => some ({ s with poisoned := true, phase := .idle }, some .panic)
      | some s' =>
        if s.joined then some (s', some (.ok ()))
        else if s.lp.io = .exited then some (s', some (.ok ()))
        else if s.lp.io = .dead then some ({ s' with poisoned := true }, some .panic)
        else none
    else Inst.step codecs s (.api i)
  | e => Inst.step codecs s e

/-- A panic in this step: of the call that returns with it, or of the background thread. -/
def panicked (s s' : Inst ι) (r : Option (Out Unit)) : Bool := decide (r = some .panic) || (decide (s.lp.io = .run) && decide (s'.lp.io = .unwinding))

/-- The process goes on, or it has been ended by a panic and has left this data file. -/
inductive Status (ι : Type) where
  | running (s : Inst ι)
  | ended (file : Bytes)

/-- A history in this build: the end, and the results of the calls that returned, in order. -/
def run (b : Build) (codecs : ι → Codec) : Inst ι → List (Ev ι) → Option (Status ι × List (Out Unit))
  | s, [] => some (.running s, [])
  | s, e :: es =>
    match b.step codecs s e with
    | none => none
    | some (s', r) =>
      if !b.unwind && panicked s s' r then some (.ended s'.disk, [])
      else match run b codecs s' es with
        | none => none
        | some (st, rs) => some (st, r.toList ++ rs)

end Build
end Mmkv
