import Verif.Model.Store
import Verif.Model.Looper
/-!
# One store: src/core/mmkv_impl.rs and the public calls of src/mmkv.rs on one directory

All handles of a directory share one `Arc<RwLock<MmkvImpl>>`.  A mutating call holds the write lock from its
first to its last step, so at most one is under way (`phase`); the background thread runs freely in between.
-/

namespace Mmkv

/-- A job of the IO thread: the closures posted in src/core/mmkv_impl.rs:71-72 and 94-95 (`write`) and 107-112
(`remove`). -/
inductive Job where
  | write (b : Buffer) (dup : Bool)
  | remove
deriving DecidableEq, Repr

/-- The callback state of the IO thread: the writer, and whether its file has been unlinked. -/
structure Cb where
  ws : WState
  removed : Bool := false
deriving DecidableEq, Repr

/-- Running a job: `IOWriter::write`, or `IOWriter::remove_file` (src/core/writer.rs:104-106, with the removal of
the nonce file, src/core/mmkv_impl.rs:109-110).  Simplification: `fs::remove_file` succeeds (its result is ignored). -/
def execJob (c : Codec) (order : List Buffer → List Buffer) : Job → Cb → Run Cb
  | .write b dup, cb =>
    match cb.ws.write c order b dup with
    | .done ws => .done { cb with ws := ws }
    | .panic ws => .panic { cb with ws := ws }
  | .remove, cb => .done { cb with removed := true }

/-- Where the call that holds the write lock is: src/core/mmkv_impl.rs:65-114, src/mmkv.rs:206-220. -/
inductive Phase where
  /-- no mutating call under way -/
  | idle
  /-- put/delete: map updated, job not yet in the queue -/
  | push (j : Job)
  /-- put/delete: job queued, signal not yet sent -/
  | send
  /-- clear_data: flag and map cleared, removal job not yet queued -/
  | clrPush
  /-- clear_data: removal job queued, signal not yet sent -/
  | clrSend
  /-- clear_data: about to send `Quit` -/
  | clrQuit
  /-- clear_data: waiting for the thread -/
  | clrJoin
  /-- clear_data: about to build the new `MmkvImpl` -/
  | clrOpen
  /-- the last handle has been (or is being) dropped -/
  | closed
deriving DecidableEq, Repr

/-- The oracle of a job: the order in which a `HashMap` yields its values. -/
abbrev Order := List Buffer → List Buffer

/-- One store.  `codecs i` is the encoder/decoder pair with key and nonce `i`. -/
structure Inst (ι : Type) where
  idx : ι
  kv : KvMap Buffer
  valid : Bool := true
  poisoned : Bool := false
  phase : Phase := .idle
  joined : Bool := false
  lp : Looper.St Order Job Cb

/-- A token that reaches `Buffer::new`: built-in, or accepted by `TypeToken::new`
(src/core/buffer.rs:119-124; the constructor is the only way to make one). -/
def tokenOk (t : BitVec 32) : Bool := t.toNat ≤ 10 || !reserved t

/-- What happens to a store: the start of a mutating call, the next step of the call that holds the lock (with the
key and nonce a re-creation would use), the drop of the last handle, a step of the IO thread. -/
inductive Ev (ι : Type) where
  | put (key : String) (token : BitVec 32) (bytes : Bytes)
  | delete (key : String)
  | clear
  | api (i : ι)
  | drop
  | io (o : Order)

variable {ι : Type}

namespace Inst

/-- The content of the data file as a later open would find it (`[]`: missing). -/
def disk (s : Inst ι) : Bytes := if s.lp.cb.removed then [] else s.lp.cb.ws.file

/-- `MmkvImpl::new` on the file content `file`, src/core/mmkv_impl.rs:28-63; `none` is a panic. -/
def openAt (codecs : ι → Codec) (i : ι) (page : Nat) (file : Bytes) (usizeBytes : Nat := 8)
    (quota : Option Nat := none) : Option (Inst ι) :=
  match openStore (codecs i) page file usizeBytes quota with
  | none => none
  | some o => some { idx := i, kv := o.kv, lp := Looper.new { ws := o.ws } }

/-- `IOError` as the model records it (the text is not modelled). -/
def ioErr : Error := .ioError ""

/-- One event; `none` when it is impossible in this state.  The second component is the result of the call that
returns with this event, if one does. -/
def step (codecs : ι → Codec) (s : Inst ι) : Ev ι → Option (Inst ι × Option (Out Unit))
  | .put key token bytes =>
    -- src/mmkv.rs:181-186, src/core/mmkv_impl.rs:65-73
    if s.phase ≠ .idle ∨ tokenOk token = false then none
    else if s.poisoned then some (s, some (.err (.lockError "")))
    else if s.valid = false then some (s, some (.err .instanceClosed))
    else
      let b := Buffer.ofRaw key token bytes
      let dup := (s.kv.get key).isSome
      some ({ s with kv := s.kv.insert key b, phase := .push (.write b dup) }, none)
  | .delete key =>
    -- src/mmkv.rs:196-201, src/core/mmkv_impl.rs:85-96
    if s.phase ≠ .idle then none
    else if s.poisoned then some (s, some (.err (.lockError "")))
    else if s.valid = false then some (s, some (.err .instanceClosed))
    else if (s.kv.get key).isNone then some (s, some (.ok ()))
    else some ({ s with kv := s.kv.erase key, phase := .push (.write (Buffer.deleted key) true) }, none)
  | .clear =>
    -- src/mmkv.rs:206-211, src/core/mmkv_impl.rs:98-104
    if s.phase ≠ .idle then none
    else if s.poisoned then some (s, some (.err (.lockError "")))
    else if s.valid = false then some ({ s with phase := .clrOpen }, none)
    else some ({ s with valid := false, kv := [], phase := .clrPush }, none)
  | .api i =>
    match s.phase with
    | .idle => none
    | .closed => none
    | .push j => some ({ s with lp := Looper.push s.lp j, phase := .send }, none)
    | .send =>
      let (lp, ok) := Looper.send s.lp
      some ({ s with lp := lp, phase := .idle }, some (if ok then .ok () else .err ioErr))
    | .clrPush => some ({ s with lp := Looper.push s.lp .remove, phase := .clrSend }, none)
    | .clrSend =>
      let (lp, ok) := Looper.send s.lp
      if ok then some ({ s with lp := lp, phase := .clrQuit }, none)
      else some ({ s with lp := lp, phase := .idle }, some (.err ioErr))
    | .clrQuit =>
      let (lp, ok) := Looper.quitSend s.lp
      if ok then some ({ s with lp := lp, phase := .clrJoin }, none)
      else some ({ s with lp := lp, phase := .idle }, some (.err ioErr))
    | .clrJoin =>
      -- src/core/io_looper.rs:50-56: `join` waits for the thread and reports a panic
      if s.lp.io = .exited then some ({ s with joined := true, phase := .clrOpen }, none)
      else if s.lp.io = .dead then some ({ s with joined := true, phase := .idle }, some (.err ioErr))
      else none
    | .clrOpen =>
      -- src/mmkv.rs:212-219; a panic here happens under the write lock and poisons it.  A fresh nonce (and the key of
      -- the calling handle) is used when the nonce file was removed; simplification: else key and nonce stay the same
      let i := if s.lp.cb.removed then i else s.idx
      match openAt codecs i s.lp.cb.ws.page s.disk s.lp.cb.ws.usizeBytes s.lp.cb.ws.quota with
      | none => some ({ s with poisoned := true, phase := .idle }, some .panic)
      | some s' =>
        -- the old instance is dropped: `IOLooper::drop` joins a thread not yet joined, `unwrap` panics if it died
        if s.joined then some (s', some (.ok ()))
        else if s.lp.io = .exited then some (s', some (.ok ()))
        else if s.lp.io = .dead then some ({ s' with poisoned := true }, some .panic)
        else none
  | .drop =>
    -- src/core/io_looper.rs:93-96
    if s.phase ≠ .idle then none
    else some ({ s with phase := .closed, lp := Looper.dropSender s.lp }, none)
  | .io o =>
    match Looper.ioStep (fun o j cb => execJob (codecs s.idx) o j cb) o s.lp with
    | none => none
    | some lp => some ({ s with lp := lp }, none)

/-- `MMKV::get`, src/mmkv.rs:189-194 and src/core/mmkv_impl.rs:75-83, at a type given by its token and `from_bytes`.
The read lock excludes mutating calls, so it happens when none is under way; reads change nothing. -/
def getAs {α : Type} (s : Inst ι) (key : String) (token : BitVec 32) (fromB : Bytes → Out α) : Out α :=
  if s.poisoned then .err (.lockError "")
  else if s.valid = false then .err .instanceClosed
  else match s.kv.get key with
    | none => .err .keyNotFound
    | some b => b.parseAs token fromB

/-- `MMKV::get` at a built-in type. -/
def get (s : Inst ι) (key : String) (t : Ty) : Out t.Val := s.getAs key t.token (fromBytes t)

/-- A history: the final state and the results of the calls that returned, in order. -/
def run (codecs : ι → Codec) : Inst ι → List (Ev ι) → Option (Inst ι × List (Out Unit))
  | s, [] => some (s, [])
  | s, e :: es =>
    match step codecs s e with
    | none => none
    | some (s', r) => match run codecs s' es with
      | none => none
      | some (s'', rs) => some (s'', r.toList ++ rs)

/-- `close` has returned: the last handle is gone and the thread has been joined without a panic. -/
def closedOk (s : Inst ι) : Prop := s.phase = .closed ∧ s.lp.io = .exited

end Inst
end Mmkv
