import Verif.Props.Bounded
import Verif.Props.Looper
/-!
# The repository's own tests, replayed on the model

These are tests, not proofs of properties: they check the model against the numbers the authors of the code observed
(`cargo test` passes with them).  No claim of MANIFEST.json rests on them.
-/

namespace Mmkv
open Spec Inst

/-- Big-endian bytes of an `i32`, `Buffer::new(key, n)`. -/
def i32Bytes (n : Nat) : Bytes := beBytes 4 n

/-- Some `put`s of `i32`s, each written at once, then the drop of the store. -/
def putsThenDrop (l : List (String × Nat)) : Session Unit :=
  ⟨(), l.flatMap (fun p => fullPut p.1 0 (i32Bytes p.2)) ++ [.drop, .io idOrder], true⟩

/-- `write_offset` and size of the file after each of some sessions. -/
def offsetsAfter (page : Nat) : Bytes → List (Session Unit) → Option (List (Nat × Nat))
  | _, [] => some []
  | file, x :: xs =>
    match lifeRun page file [x] with
    | none => none
    | some (_, f) => (offsetsAfter page f xs).map ((header f + 8, f.length) :: ·)

/-- What a fresh open of a plain file shows for an `i32`. -/
def i32At (page : Nat) (file : Bytes) (key : String) : Option (Out (BitVec 32)) :=
  (openAt plain () page file).map fun s => Inst.get s key .i32

/-- `test_trim_and_expand_default`, src/core/mmkv_impl.rs:142-191. -/
theorem conf_trim_and_expand_default :
    offsetsAfter 100 [] [putsThenDrop [("key1", 1)], putsThenDrop [("key2", 2), ("key3", 3), ("key1", 4), ("key2", 5)],
      putsThenDrop [("key1", 6)], putsThenDrop [("key4", 4), ("key5", 5), ("key6", 6)], putsThenDrop [("key7", 7)]] =
    some [(25, 100), (93, 100), (59, 100), (110, 200), (127, 200)] := by decide +kernel

/-- The two `get`s of `test_trim_and_expand_default`, src/core/mmkv_impl.rs:170-171. -/
theorem conf_trim_and_expand_values :
    ((lifeRun 100 [] [putsThenDrop [("key1", 1)], putsThenDrop [("key2", 2), ("key3", 3), ("key1", 4), ("key2", 5)],
      putsThenDrop [("key1", 6)]]).map fun r => (i32At 100 r.2 "key1", i32At 100 r.2 "key2")) =
    some (some (.ok 6), some (.ok 5)) := by decide +kernel

/-- Some encrypted `put`s of `i32`s, then the drop of the store. -/
def encPutsThenDrop (l : List (String × Nat)) : EncSession :=
  EncSession.mk testKey nonce1 (l.flatMap (fun p => encPut (testKeyBytes, nonce1) p.1 0 (i32Bytes p.2)) ++ encClose) true false

/-- `write_offset` and size of the encrypted file after each of some sessions. -/
def encOffsetsAfter (page : Nat) : EncDir → List EncSession → Option (List (Nat × Nat))
  | _, [] => some []
  | d, x :: xs =>
    match encLifeRun toy page d [x] with
    | none => none
    | some (_, d') => (encOffsetsAfter page d' xs).map ((header d'.file + 8, d'.file.length) :: ·)

/-- `test_trim_and_expand_encrypt`, src/core/mmkv_impl.rs:193-236 (with the toy cipher, whose tag has 8 bytes like the
code's `Eax<Aes128, U8>`). -/
theorem conf_trim_and_expand_encrypt :
    encOffsetsAfter 100 EncDir.fresh [encPutsThenDrop [("key1", 1)], encPutsThenDrop [("key2", 2), ("key3", 3)],
      encPutsThenDrop [("key1", 4), ("key2", 5)], encPutsThenDrop [("key4", 4)], encPutsThenDrop [("key5", 5)]] =
    some [(32, 100), (80, 100), (80, 100), (104, 200), (128, 200)] := by decide +kernel

/-- `test_mmap`, src/core/memory_map.rs:139-173: what `write_offset` and `read` give. -/
def mmapTest : Option (List (Option Nat) × List Bytes) :=
  let s : WState := WState.mk (zeros 1024) 1024 1024 0 false 8 none []
  match (s.append [1, 2, 3]).andThen fun s => s.append [4] with
  | .panic _ => none
  | .done s1 => match s1.reset.andThen fun s => s.append [5, 4, 3, 2, 1] with
    | .panic _ => none
    | .done s2 => some ([s.writeOffset, s1.writeOffset, s2.writeOffset],
        [(s1.file.take 10).drop 8, (s1.file.take 12).drop 11, (s2.file.take 9).drop 8, (s2.file.take 10).drop 9])

theorem conf_mmap : mmapTest = some ([some 8, some 12, some 13], [[1, 2], [4], [5], [4]]) := by decide +kernel

/-- `test_crc_buffer`, src/core/crc.rs:57-64. -/
theorem conf_crc_buffer :
    (crcCodec.enc (Buffer.ofRaw "key" 0 (i32Bytes 1)) 0).map (fun bytes => (crcCodec.dec bytes 0, bytes.length)) =
      some (.ok (some (Buffer.ofRaw "key" 0 (i32Bytes 1))) 16, 16) := by decide +kernel

/-- `test_crypt_buffer`, src/core/encrypt.rs:178-201: two records at their own positions, and the first one at the second's. -/
theorem conf_crypt_buffer :
    ((encrypted toy (testKeyBytes, nonce1)).enc (Buffer.ofRaw "key1" 0 (i32Bytes 1)) 0).map (fun b1 =>
      ((encrypted toy (testKeyBytes, nonce1)).dec b1 0, (encrypted toy (testKeyBytes, nonce1)).dec b1 1, b1.length)) =
      some (.ok (some (Buffer.ofRaw "key1" 0 (i32Bytes 1))) 24, .ok none 24, 24) ∧
    ((encrypted toy (testKeyBytes, nonce1)).enc (Buffer.ofRaw "key2" 0 (i32Bytes 2)) 1).map (fun b2 =>
      ((encrypted toy (testKeyBytes, nonce1)).dec b2 1, b2.length)) =
      some (.ok (some (Buffer.ofRaw "key2" 0 (i32Bytes 2))) 24, 24) := by decide +kernel

/-- `test_io_loop`, src/core/io_looper.rs:162-203: three jobs, `quit`, all of them run, nothing queued. -/
theorem conf_io_loop :
    (Looper.run (fun (_ : Unit) (j : Nat) (t : List Nat) => Run.done (t ++ [j])) (Looper.new [])
        [.push 1, .send, .push 2, .send, .io (), .io (), .io (), .push 3, .send, .quit, .io (), .io (), .io (), .io (), .io (), .io (),
         .io (), .io (), .io (), .io ()]).map (fun s => (s.cb, s.queue, s.io, s.sender)) =
    some ([1, 2, 3], [], .exited, false) := by decide +kernel

/-- The calls of `test_instance`, src/mmkv.rs:285-350 (numbers as their bytes; page 4096), up to the drop. -/
def instanceCalls : List (Ev Unit) :=
  fullPut "first" 0 (i32Bytes 1) ++ fullPut "second" 0 (i32Bytes 2) ++ fullPut "third" 0 (i32Bytes 3) ++
  fullPut "fourth" 1 (strBytes "four") ++ fullPut "first" 1 (strBytes "one") ++ fullPut "second" 2 [0] ++
  fullPut "byte_array" 6 [1, 2, 3] ++ fullPut "i32_array" 7 (i32Bytes 1 ++ i32Bytes 2 ++ i32Bytes 3) ++
  [.delete "second", .api (), .api (), .io idOrder, .io idOrder, .io idOrder, .io idOrder]

/-- What `test_instance` reads, src/mmkv.rs:285-350: strings, `i32`s, arrays before closing; two keys after reopening. -/
def instanceReads : Option (List (Out String) × List (Out (BitVec 32)) × Out Bytes × Out (List (BitVec 32)) × Out String × Out (BitVec 32)) :=
  match openAt plain () 256 [] with
  | none => none
  | some s => match run plain s instanceCalls with
    | none => none
    | some (s, _) => match run plain s [.drop, .io idOrder] with
      | none => none
      | some (c, _) => match openAt plain () 256 c.disk with
        | none => none
        | some s' => some ([Inst.get s "first" .str, Inst.get s "fourth" .str],
            [Inst.get s "first" .i32, Inst.get s "second" .i32, Inst.get s "third" .i32],
            Inst.get s "byte_array" .byteArray, Inst.get s "i32_array" .i32Array, Inst.get s' "first" .str, Inst.get s' "second" .i32)

set_option synthInstance.maxSize 512 in
set_option synthInstance.maxHeartbeats 200000 in
theorem conf_instance : instanceReads = some ([.ok "one", .ok "four"], [.err .typeMissMatch, .err .keyNotFound, .ok 3],
    .ok [1, 2, 3], .ok [1, 2, 3], .ok "one", .err .keyNotFound) := by decide +kernel

end Mmkv
