import Verif.Model.Instance
import Verif.Model.LogText
/-!
# The texts the core of the store logs: src/core/{config,iter,crc,encrypt,writer,mmkv_impl,io_looper}.rs, src/mmkv.rs

Model/Logged has the places of these log calls; here are their levels and texts.  What changes the state is left to Model/Store
and Model/Instance: each function here takes the state before and gives the messages logged on the way, in order.
Simplifications: durations (`cost {:?}`, `snapshot finished in {:?}`) are left out at the end of their texts, and so is the
reason of an error in decoding (`{:?}` of the error).  The log tag in front is left out.
-/

namespace Mmkv.CoreText
open LogText (Msg decimal)
variable {ι : Type}

/-- `{}` of an unsigned number. -/
def num (n : Nat) : String := decimal n

/-- `Config::expand`, src/core/config.rs:39 and 43-48. -/
def expandText (s : WState) : List Msg :=
  (.info, "start expand, file size: " ++ num s.file.length) ::
    match s.expand with
    | .done t => [(.info, "expanded, file size: " ++ num t.file.length ++ ", cost ")]
    | .panic _ => []

/-- src/core/crc.rs:40, src/core/encrypt.rs:157. -/
def badRecord : Msg := (.error, "Failed to decode data, reason: ")

/-- src/core/iter.rs:75. -/
def badIter : Msg := (.error, "Failed to iter memory map, reason: ")

/-- The messages of `Iter::next` repeated, src/core/iter.rs:62-79: `iterLoop` with its log calls. -/
def iterText (c : Codec) : (fuel : Nat) → (position : Nat) → Bytes → List Msg
  | _, _, [] => []
  | 0, _, _ :: _ => []
  | fuel + 1, position, b :: bs =>
    match c.dec (b :: bs) position with
    | .panic => []
    | .err _ => [badIter]
    | .ok buffer len => (if buffer.isNone then [badRecord] else []) ++ iterText c fuel (position + 1) ((b :: bs).drop len)

/-- The messages of `mm.iter(decode).into_map()`, src/core/iter.rs:18-54. -/
def readText (c : Codec) (s : WState) : List Msg :=
  match s.writeOffset with
  | none => []
  | some endOff =>
    if endOff ≤ WState.lenOffset then []
    else if s.mmLen < endOff then []
    else
      let content := (s.file.take endOff).drop WState.lenOffset
      iterText c content.length 0 content

/-- The messages of the rewrite loop of a compaction, src/core/writer.rs:75-82. -/
def trimLoopText (c : Codec) (maxLen : Nat) : List Buffer → WState → List Msg
  | [], _ => []
  | b :: rest, s =>
    match c.enc b s.position with
    | none => []
    | some bytes =>
      match s.writeOffset with
      | none => []
      | some off =>
        (if off + bytes.length > maxLen then expandText s else []) ++
          match (if off + bytes.length > maxLen then s.expand else .done s).andThen fun s => s.append bytes with
          | .done t => trimLoopText c maxLen rest { t with position := t.position + 1 }
          | .panic _ => []

/-- The last message of a compaction, src/core/writer.rs:84-90. -/
def wroteText (s : WState) : List Msg :=
  match s.writeOffset with
  | none => []
  | some off => [(.info, "wrote " ++ num s.position ++ " items, new len " ++ num off ++ ", cost ")]

/-- The messages of `IOWriter::write`, src/core/writer.rs:39-97. -/
def writeText (c : Codec) (order : List Buffer → List Buffer) (buffer : Buffer) (duplicated : Bool) (s : WState) : List Msg :=
  match c.enc buffer s.position with
  | none => []
  | some data =>
    match s.writeOffset with
    | none => []
    | some off =>
      let maxLen := s.mmLen
      let s := if duplicated then { s with needTrim := true } else s
      if data.length + off ≤ maxLen then []
      else if s.needTrim then
        [(.info, "start trim, current len " ++ num off), (.info, "start take snapshot")] ++ readText c s ++
          match s.readItems c with
          | none => []
          | some items =>
            let values := order (mapStep (intoMap items).1 (some buffer)).values
            (.info, "snapshot finished in ") ::
              match s.reset with
              | .panic _ => []
              | .done t =>
                trimLoopText c maxLen values { t with position := 0 } ++
                  match WState.trimLoop c maxLen values { t with position := 0 } with
                  | .panic _ => []
                  | .done u => wroteText u
      else expandText s

/-- The messages of a job of the background thread: a write, or the removal of the data (src/core/mmkv_impl.rs:107-112). -/
def jobText (c : Codec) (order : List Buffer → List Buffer) (cb : Cb) : Job → List Msg
  | .write b dup => writeText c order b dup cb.ws
  | .remove => [(.info, "data cleared")]

/-- The messages of `Config::new` + `MmkvImpl::new`, src/core/mmkv_impl.rs:28-63: those of reading the file, and lines 54-61. -/
def openText (c : Codec) (page : Nat) (file : Bytes) (usizeBytes : Nat := 8) (quota : Option Nat := none) : List Msg :=
  let file := configNew page file
  if file.length = 0 then []
  else
    let s : WState := { file, mmLen := file.length, page, position := 0, needTrim := false, usizeBytes, quota }
    readText c s ++
      match s.readItems c with
      | none => []
      | some items =>
        match s.writeOffset with
        | none => []
        | some off => [(.info, "instance initialized, read " ++ num (intoMap items).1.length ++ " items, content len " ++ num off ++
            ", file size " ++ num s.mmLen ++ ", cost ")]

/-- The end of `IOLooper::drop`, src/core/io_looper.rs:102. -/
def droppedText : List Msg := [(.debug, "IOLooper dropped, cost ")]

/-- `IOLooper::drop` once the thread is gone, src/core/io_looper.rs:98-102: a thread not yet joined is; `unwrap` panics if it
died. -/
def looperDropText (joined : Bool) (io : Looper.IoPc) : List Msg :=
  if joined then droppedText
  else if io = .exited then (.verbose, "io thread finished") :: droppedText
  else []

/-- The messages logged with an event of `Inst.step`, by the calls on the store (src/core/mmkv_impl.rs:98-114, src/mmkv.rs:47-55,
206-220) and by the background thread.  `put`, `get` and `delete` log nothing themselves.  Simplifications: the drop of the last
handle logs at the event `drop`, or, while the thread has yet to finish, its last two messages with the thread's last step;
making a further handle and dropping one that is not the last (src/mmkv.rs:49-53, 73, 86-89) are not events of `Inst`. -/
def stepText (codecs : ι → Codec) (s : Inst ι) : Ev ι → List Msg
  | .put _ _ _ => []
  | .delete _ => []
  | .clear => if s.phase = .idle ∧ s.poisoned = false ∧ s.valid = false then [(.warn, "instance already closed")] else []
  | .api i =>
    match s.phase with
    | .clrQuit =>
      -- src/core/io_looper.rs:50-51
      if (Looper.quitSend s.lp).2 = true ∧ s.joined = false then [(.debug, "waiting for remain tasks to finish")] else []
    | .clrOpen =>
      -- src/mmkv.rs:212-219: the new instance is made, then the old one dropped
      let c := codecs (if s.lp.cb.removed then i else s.idx)
      openText c s.lp.cb.ws.page s.disk s.lp.cb.ws.usizeBytes s.lp.cb.ws.quota ++
        match openStore c s.lp.cb.ws.page s.disk s.lp.cb.ws.usizeBytes s.lp.cb.ws.quota with
        | none => []
        | some _ => looperDropText s.joined s.lp.io
    | _ => []
  | .drop =>
    -- src/mmkv.rs:47-55: the last handle
    if s.phase = .idle then (.debug, "drop MMKV, remain ref count 0") :: looperDropText s.joined s.lp.io else []
  | .io o =>
    match s.lp.io with
    | .run =>
      match s.lp.buf with
      | [] => []
      | j :: _ => jobText (codecs s.idx) o s.lp.cb j
    | .recv =>
      -- a closed store waits for the thread: `drop` goes on once it has returned
      if s.phase = .closed ∧ s.lp.chan.head? ≠ some .next then looperDropText s.joined .exited else []
    | _ => []

/-- The messages of a history, in the order they are logged. -/
def runText (codecs : ι → Codec) : Inst ι → List (Ev ι) → List Msg
  | _, [] => []
  | s, e :: es =>
    match Inst.step codecs s e with
    | none => []
    | some (s', _) => stepText codecs s e ++ runText codecs s' es

end Mmkv.CoreText
