import Verif.Spec
import Verif.Model.Instance
/-!
# A whole process: src/mmkv.rs

The registry `INSTANCE_MAP`, the handles (`MMKV` values), the stores they point to (`Arc<RwLock<MmkvImpl>>`) and the
data files, at the granularity of the critical sections of the registry lock, with the release of the `Arc` (which
happens after `Drop::drop` returned and without the registry lock) as a step of its own.  Any number of threads: an
event is a step of whichever thread can take it.
-/

namespace Mmkv

/-- What never changes: the codec family, the page size (src/mmkv.rs:18-31), which data file a directory string names
(several strings may name the same file), whether `resolve_file_path` accepts the string (src/mmkv.rs:114-126) and
whether `Encryptor::init` accepts the key (src/core/encrypt.rs:34-43). -/
structure Sys (ι : Type) where
  codecs : ι → Codec
  page : Nat
  fileOf : String → Nat
  dirOk : String → Bool := fun _ => true
  keyOk : ι → Bool := fun _ => true

/-- Life of an `MMKV` value: in use; `Drop::drop` has run (src/mmkv.rs:43-55) but its `Arc` is not yet released;
released. -/
inductive HState where
  | live | unlisted | gone
deriving DecidableEq, Repr

/-- `MMKV`, src/mmkv.rs:36-41: its directory string and the store it points to. -/
structure Handle where
  dir : String
  obj : Nat
  st : HState := .live
deriving DecidableEq, Repr

/-- One `Arc<RwLock<MmkvImpl>>`: the store, the string it was opened with, the inode its file is mapped from, and the
handle whose call holds the write lock.  The content of the file lives in the inode; `inst.lp.cb.ws.file` is a copy
refreshed at every step. -/
structure Obj (ι : Type) where
  inst : Inst ι
  dir : String
  inode : Nat
  caller : Option Nat := none

/-- The process and its data files.  `map` is `INSTANCE_MAP` (src/mmkv.rs:33-34; a value is a `Weak`), `poisoned` the
state of its lock; `names` says which inode a data file name leads to, `inodes` what is in them. -/
structure World (ι : Type) where
  poisoned : Bool := false
  map : KvMap Nat := []
  objs : List (Obj ι) := []
  handles : List Handle := []
  names : Nat → Option Nat
  inodes : List Bytes

/-- One event. -/
inductive WEv (ι : Type) where
  /-- first half of `new`: the look-up under the read lock, src/mmkv.rs:71-80 -/
  | lookup (dir : String)
  /-- second half of `new`: the write-lock section, src/mmkv.rs:83-111 -/
  | create (dir : String) (i : ι)
  /-- a mutating call through handle `h`, which was made with the string `dir` -/
  | call (h : Nat) (dir : String) (m : Spec.Mutation)
  /-- the next step of the call that holds the write lock of store `o` -/
  | cont (o : Nat) (i : ι)
  /-- a step of the background thread of store `o` -/
  | io (o : Nat) (ord : Order)
  /-- `Drop::drop` of handle `h`, src/mmkv.rs:43-55 -/
  | drop1 (h : Nat)
  /-- release of the `Arc` of handle `h`; the last one drops the store, src/core/io_looper.rs:93-96 -/
  | drop2 (h : Nat)

/-- What the event returned to its thread, if anything. -/
inductive WRes where
  | quiet
  | miss
  | handle (h : Nat)
  | ret (r : Out Unit)
  | panic
deriving DecidableEq, Repr

variable {ι : Type}

/-- The call of `Inst` that makes a mutation. -/
def evOf : Spec.Mutation → Ev ι
  | .put k e => .put k e.token e.bytes
  | .delete k => .delete k
  | .clear => .clear

/-- Refreshing the copy of the file in the writer's state: the mapping is shared (`MAP_SHARED`,
src/core/memory_map.rs:31). -/
def Inst.withFile (s : Inst ι) (f : Bytes) : Inst ι :=
  { s with lp := { s.lp with cb := { s.lp.cb with ws := { s.lp.cb.ws with file := f } } } }

/-- The store as `clear_data` finds it when it opens the file again by name (`none`: the name leads nowhere). -/
def Inst.atName (s : Inst ι) (f : Option Bytes) : Inst ι :=
  { s with lp := { s.lp with cb := { ws := { s.lp.cb.ws with file := f.getD [] }, removed := f.isNone } } }

/-- The last step of `clear_data` on a store, src/mmkv.rs:212-219: `MmkvImpl::new` with the key of the calling handle,
which panics on a malformed key (src/core/encrypt.rs:34-43) under the write lock and so poisons it. -/
def Inst.reopenStep (S : Sys ι) (s : Inst ι) (i : ι) : Option (Inst ι × Option (Out Unit)) :=
  if S.keyOk i = false then some ({ s with poisoned := true, phase := .idle }, some .panic)
  else Inst.step S.codecs s (.api i)

namespace World

/-- The process at its start, on given files. -/
def start (names : Nat → Option Nat) (inodes : List Bytes) : World ι := { names, inodes }

/-- Content of an inode. -/
def content (w : World ι) (n : Nat) : Bytes := w.inodes[n]?.getD []

/-- Content of the file with a given name, if it exists. -/
def fileAt (w : World ι) (name : Nat) : Option Bytes := (w.names name).map w.content

/-- `Arc::strong_count`: the handles not yet released. -/
def strong (w : World ι) (o : Nat) : Nat := w.handles.countP fun hd => hd.obj == o && hd.st != .gone

/-- `instance_map.get(dir).and_then(|mmkv| mmkv.upgrade())`, src/mmkv.rs:72 and 85. -/
def upgrade (w : World ι) (dir : String) : Option Nat :=
  match w.map.get dir with
  | none => none
  | some o => if w.strong o = 0 then none else some o

/-- The call of some handle is under way, so the handle is borrowed and cannot be dropped. -/
def busy (w : World ι) (h : Nat) : Bool := w.objs.any fun ob => ob.caller == some h

/-- Returning an `MMKV`, src/mmkv.rs:74-79, 90-95, 105-110. -/
def addHandle (w : World ι) (dir : String) (o : Nat) : World ι × WRes :=
  ({ w with handles := w.handles ++ [{ dir, obj := o }] }, .handle w.handles.length)

/-- `Config::new`, src/core/config.rs:15-34: open or create the file with this name; an empty one gets a page. -/
def touch (w : World ι) (page : Nat) (name : Nat) : World ι × Nat :=
  match w.names name with
  | some n => ({ w with inodes := w.inodes.set n (configNew page (w.content n)) }, n)
  | none => ({ w with names := fun f => if f = name then some w.inodes.length else w.names f,
                      inodes := w.inodes ++ [configNew page []] }, w.inodes.length)

/-- An event of store `o`: it works on the content of its inode and leaves it there; the removal job unlinks the
name.  `caller` is the handle a call goes through. -/
def stepObj (S : Sys ι) (w : World ι) (o : Nat) (e : Ev ι) (caller : Option Nat) : Option (World ι × Option (Out Unit)) :=
  match w.objs[o]? with
  | none => none
  | some ob =>
    match Inst.step S.codecs (ob.inst.withFile (w.content ob.inode)) e with
    | none => none
    | some (s', r) =>
      some ({ w with
        objs := w.objs.set o { ob with inst := s', caller := if s'.phase = .idle then none else caller }
        inodes := w.inodes.set ob.inode s'.lp.cb.ws.file
        names := if ob.inst.lp.cb.removed = false ∧ s'.lp.cb.removed = true then
            fun f => if f = S.fileOf ob.dir then none else w.names f
          else w.names }, r)

/-- The last step of `clear_data`, src/mmkv.rs:212-219: the file is opened again by name.  (If that panics the old
store stays; nothing uses its inode any more.) -/
def reopen (S : Sys ι) (w : World ι) (o : Nat) (ob : Obj ι) (i : ι) : Option (World ι × Option (Out Unit)) :=
  match (ob.inst.atName (w.fileAt (S.fileOf ob.dir))).reopenStep S i with
  | none => none
  | some (s', r) =>
    let (w1, n) := w.touch S.page (S.fileOf ob.dir)
    some ({ w1 with objs := w1.objs.set o { ob with inst := s', inode := n, caller := none } }, r)

/-- What a call returned, as an event result. -/
def retOf : Option (Out Unit) → WRes
  | none => .quiet
  | some r => .ret r

/-- One event; `none` when it is impossible. -/
def step (S : Sys ι) (w : World ι) : WEv ι → Option (World ι × WRes)
  | .lookup dir =>
    -- src/mmkv.rs:71-81: `read().unwrap()`
    if w.poisoned then some (w, .panic)
    else match w.upgrade dir with
      | some o => some (w.addHandle dir o)
      | none => some (w, .miss)
  | .create dir i =>
    -- src/mmkv.rs:83: `write().unwrap()`; a panic below happens while the lock is held and poisons it
    if w.poisoned then some (w, .panic)
    else match w.upgrade dir with
      | some o => some (w.addHandle dir o)
      | none =>
        if S.dirOk dir = false then some ({ w with poisoned := true }, .panic)
        else
          let (w, n) := w.touch S.page (S.fileOf dir)
          if S.keyOk i = false then some ({ w with poisoned := true }, .panic)
          else match Inst.openAt S.codecs i S.page (w.content n) with
            | none => some ({ w with poisoned := true }, .panic)
            | some s =>
              some (addHandle { w with objs := w.objs ++ [{ inst := s, dir, inode := n }],
                                       map := w.map.insert dir w.objs.length } dir w.objs.length)
  | .call h dir m =>
    match w.handles[h]? with
    | none => none
    | some hd =>
      if hd.st ≠ .live ∨ hd.dir ≠ dir ∨ w.busy h then none
      else (w.stepObj S hd.obj (evOf m) (some h)).map fun (w, r) => (w, retOf r)
  | .cont o i =>
    match w.objs[o]? with
    | none => none
    | some ob =>
      (if ob.inst.phase = .clrOpen then w.reopen S o ob i else w.stepObj S o (.api i) ob.caller).map
        fun (w, r) => (w, retOf r)
  | .io o ord =>
    match w.objs[o]? with
    | none => none
    | some ob => (w.stepObj S o (.io ord) ob.caller).map fun (w, r) => (w, retOf r)
  | .drop1 h =>
    match w.handles[h]? with
    | none => none
    | some hd =>
      if hd.st ≠ .live ∨ w.busy h then none
      else
        let handles := w.handles.set h { hd with st := .unlisted }
        -- `write().unwrap()` panics when poisoned; the fields are dropped all the same
        if w.poisoned then some ({ w with handles }, .panic)
        else some ({ w with handles, map := if w.strong hd.obj = 1 then w.map.erase hd.dir else w.map }, .quiet)
  | .drop2 h =>
    match w.handles[h]? with
    | none => none
    | some hd =>
      if hd.st ≠ .unlisted then none
      else
        let w' := { w with handles := w.handles.set h { hd with st := .gone } }
        if w'.strong hd.obj = 0 then (w'.stepObj S hd.obj .drop none).map fun (w, r) => (w, retOf r)
        else some (w', .quiet)

/-- A history of the process: its final state and what the events returned. -/
def run (S : Sys ι) : World ι → List (WEv ι) → Option (World ι × List WRes)
  | w, [] => some (w, [])
  | w, e :: es =>
    match step S w e with
    | none => none
    | some (w', r) => match run S w' es with
      | none => none
      | some (w'', rs) => some (w'', r :: rs)

/-- The store a handle points to, if the handle is in use. -/
def store? (w : World ι) (h : Nat) : Option (Inst ι) :=
  match w.handles[h]? with
  | none => none
  | some hd => if hd.st = .live then (w.objs[hd.obj]?).map (·.inst) else none

end World
end Mmkv
