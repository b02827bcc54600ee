import Verif.Model.World
/-!
# What a store takes from the operating system: a descriptor, a mapping, a thread

Which events of a process open or close the data file, map or unmap it, start or end a background thread.  `Config` (with its `File`,
src/core/config.rs:9-13) and the `MemoryMap` are moved into the `IOWriter` (src/core/writer.rs:9-16), the writer into the closure of the
background thread (src/core/io_looper.rs:107-112), so they are given back when that thread ends, and by no other event.

Simplifications: the nonce file of `Encryptor::init` (opened and closed inside that call, src/core/encrypt.rs:34-43) and the memory of
the heap are not counted; an open that panics does so after the file is mapped, or because of the key, before it is
(`OpenOptions::open` itself failing takes nothing).
-/

namespace Mmkv
variable {ι : Type}

/-- A descriptor of the data file, a mapping of it, a background thread. -/
inductive Rsc where
  | file | map | thread
deriving DecidableEq, Repr

/-- Taken from the system, or given back. -/
inductive RAct where
  | take (r : Rsc)
  | give (r : Rsc)
deriving DecidableEq, Repr

/-- Opening, `Config::new` then `MmkvImpl::new`: src/core/config.rs:16-22 opens the file, src/core/mmkv_impl.rs:31 panics on a bad key
(dropping the `Config`), src/core/mmkv_impl.rs:36 maps the file, the reading panics (dropping mapping and `Config`, in reverse order of
declaration) or src/core/io_looper.rs:112 starts the thread. -/
def openActs (keyOk opened : Bool) : List RAct :=
  .take .file :: (if keyOk then .take .map :: (if opened then [.take .thread] else [.give .map, .give .file]) else [.give .file])

/-- The thread ends: the closure drops its writer, fields in order of declaration (src/core/writer.rs:9-16). -/
def endActs : List RAct := [.give .file, .give .map, .give .thread]

/-- A step of the background thread from one place to another (src/core/io_looper.rs:112-131): it ends after `Quit`, a closed channel or
a panic; a job that grew the file mapped it anew and dropped the old mapping, once per page (src/core/writer.rs:99-102). -/
def ioActs (page : Nat) (before after : Looper.St Order Job Cb) : List RAct :=
  if (before.io = .recv ∧ after.io = .exited) ∨ (before.io = .unwinding ∧ after.io = .dead) then endActs
  else (List.replicate ((after.cb.ws.file.length - before.cb.ws.file.length) / page) [RAct.take .map, .give .map]).flatten

namespace World

/-- What an event takes and gives back.  Only an open that reaches `Config::new` (src/mmkv.rs:97-104), the end of a `clear_data`
(src/mmkv.rs:212-219) and the background threads do. -/
def acts (S : Sys ι) (w : World ι) : WEv ι → List RAct
  | .create dir i =>
    if w.poisoned ∨ (w.upgrade dir).isSome ∨ S.dirOk dir = false then []
    else
      let t := w.touch S.page (S.fileOf dir)
      openActs (S.keyOk i) (Inst.openAt S.codecs i S.page (t.1.content t.2)).isSome
  | .cont o i =>
    match w.objs[o]? with
    | none => []
    | some ob =>
      if ob.inst.phase = .clrOpen then
        let s := ob.inst.atName (w.fileAt (S.fileOf ob.dir))
        openActs (S.keyOk i) (Inst.openAt S.codecs (if s.lp.cb.removed then i else s.idx) s.lp.cb.ws.page s.disk
          s.lp.cb.ws.usizeBytes s.lp.cb.ws.quota).isSome
      else []
  | .io o ord =>
    match w.objs[o]? with
    | none => []
    | some ob =>
      let before := ob.inst.withFile (w.content ob.inode)
      match Inst.step S.codecs before (.io ord) with
      | none => []
      | some (after, _) => ioActs before.lp.cb.ws.page before.lp after.lp
  | _ => []

/-- What a history takes and gives back, in order. -/
def trace (S : Sys ι) : World ι → List (WEv ι) → List RAct
  | _, [] => []
  | w, e :: es =>
    match w.step S e with
    | none => []
    | some (w', _) => w.acts S e ++ trace S w' es

end World
end Mmkv
