import Verif.Model.NativeLog
import Verif.Model.Ffi
/-!
# What the C interface itself logs: src/ffi/ffi_buffer.rs, src/ffi/mod.rs

Every result handed out or taken back is logged, and so is every call.  The log thread uses the same machinery to hand a
message to a native logger (`call_target`), so whether logging ends depends on which types log when they are leaked and
released.  Texts are left out here, only the levels are kept.
-/

namespace Mmkv.CLog


/-- The Rust types that `leak` and `release` are used at, as far as `TypeId` tells them apart here. -/
inductive RType where
  | byteSlice | typedArray | internalError | rawBuffer | prim
deriving DecidableEq, Repr

/-- The messages of `Leakable::leak`, src/ffi/ffi_buffer.rs:20-27. -/
def leakLog (r : RType) : List LogLevel := if r ≠ .byteSlice then [.verbose] else []

/-- The message of `<*mut T>::release`, src/ffi/ffi_buffer.rs:34-42, without those of the destructor it runs. -/
def releaseLog (r : RType) : List LogLevel := if r ≠ .byteSlice then [.verbose] else []

/-- The messages of making and leaking the data of a result: `set_data`, src/ffi/ffi_buffer.rs:136-141; for arrays
`RawTypedArray::new` first, 89-101. -/
def dataLog : Ty → List LogLevel
  | .str => leakLog .byteSlice
  | .i32 | .bool | .i64 | .f32 | .f64 => leakLog .prim
  | .byteArray | .i32Array | .i64Array | .f32Array | .f64Array => [.verbose] ++ leakLog .typedArray

/-- `InternalError::new` and `set_error`, src/ffi/ffi_buffer.rs:182-198 and 162-164. -/
def errorLog : Option String → List LogLevel
  | none => leakLog .internalError
  | some _ => leakLog .byteSlice ++ [.verbose] ++ leakLog .internalError

/-- `map_error` (src/ffi/mod.rs:201-208), then the error is put into the result; the conversion panics for some errors. -/
def failLog (e : Error) : List LogLevel :=
  [.error] ++ match Ffi.errorCode e with
    | none => []
    | some (_, reason) => errorLog reason ++ leakLog .rawBuffer

/-- The messages of a `get_…`, src/ffi/mod.rs:284-292, given what `MMKV::get` returned. -/
def getLog (t : Ty) : Out t.Val → List LogLevel
  | .ok _ => [.verbose] ++ dataLog t ++ leakLog .rawBuffer
  | .err e => failLog e
  | .panic => []

/-- The messages of a `put_…` or of `delete`, src/ffi/mod.rs:227-234, 258-265, 346-351. -/
def unitLog : Out Unit → List LogLevel
  | .ok () => [.verbose] ++ leakLog .rawBuffer
  | .err e => failLog e
  | .panic => []

/-- `RawBuffer::drop_data`, src/ffi/ffi_buffer.rs:143-160; an array's own elements are released by 45-54 (112-125). -/
def dropDataLog (d : Ffi.Ptr) (t : Ty) : List LogLevel :=
  if d = .null then []
  else match t with
    | .str => releaseLog .byteSlice
    | .i32 | .bool | .i64 | .f32 | .f64 => releaseLog .prim
    | .byteArray | .i32Array | .i64Array | .f32Array | .f64Array => releaseLog .typedArray ++ [.verbose]

/-- `RawBuffer::drop_error`, src/ffi/ffi_buffer.rs:166-170, with `InternalError::release` (216-231). -/
def dropErrorLog (h : Ffi.Heap) (e : Ffi.Ptr) : List LogLevel :=
  if e = .null then []
  else match h.read e with
    | some (.internalError _ r) => releaseLog .internalError ++ if r = .null then [] else [.verbose] ++ releaseLog .byteSlice
    | _ => []

/-- The messages of `free_buffer`, src/ffi/mod.rs:318-321. -/
def freeLog (h : Ffi.Heap) (p : Ffi.Ptr) : List LogLevel :=
  match h.read p with
  | some (.rawBuffer d t e) => releaseLog .rawBuffer ++ dropDataLog d t ++ dropErrorLog h e
  | _ => []

/-- The messages made while a message is handed to a native logger: `call_target`, src/ffi/mod.rs:67-71; `cb`: those of the
library calls the logger's own callback makes. -/
def callTargetLog (cb : List LogLevel) : List LogLevel := leakLog .byteSlice ++ cb ++ releaseLog .byteSlice

/-- The log thread logs: the filter, then a whole `post` to itself (src/log/logger.rs:66-71, 50-61). -/
def sayAll (level : Int) (lp : Looper.St Unit Log.Job NLog.Writer) : List LogLevel → Looper.St Unit Log.Job NLog.Writer
  | [] => lp
  | m :: ms => sayAll level (if level < m.code then lp else (Looper.send (Looper.push lp (Log.Job.write m ""))).1) ms

/-- One event of the process with a native logger (`NLog.step`), where handing over a message may make more messages.
Simplification: they are queued together with the end of the job. -/
def step (cb : List LogLevel) (s : NLog.St) (e : Log.Ev) : Option (NLog.St × Bool) :=
  match NLog.step s e with
  | none => none
  | some (s', p) =>
    match s'.lp.cb.out.drop s.lp.cb.out.length with
    | [.call _ _ _] => some ({ s' with lp := sayAll s'.level s'.lp (callTargetLog cb) }, p)
    | _ => some (s', p)

/-- A history: the final state, and for each event whether its thread panicked. -/
def run (cb : List LogLevel) : NLog.St → List Log.Ev → Option (NLog.St × List Bool)
  | s, [] => some (s, [])
  | s, e :: es => match step cb s e with
    | none => none
    | some (s', p) => match run cb s' es with
      | none => none
      | some (s'', ps) => some (s'', p :: ps)

end Mmkv.CLog
