import Verif.Model.Threads
/-!
# Threads on a whole process that also close and reopen directories

Any number of threads open directories with `MMKV::new`, make calls through the handles they get, and drop handles, over any number of
directories.  `Model/World` has the steps (registry, stores, files, background threads); here each step is one of a thread that is in
a call, and an observer sees calls begin and end.
-/

namespace Mmkv
variable {ι : Type}

/-- A call made by a thread (src/mmkv.rs:43-55, 70-220): `MMKV::new(d)`, a call through handle `h` (which was made with the string `d`), or `drop` of that handle. -/
inductive POp where
  | new (d : String)
  | on (h : Nat) (d : String) (op : Op)
  | drop (h : Nat) (d : String)
deriving DecidableEq, Repr

/-- What it returns (src/mmkv.rs:70, 181-210): a handle (the `n`th made by the process), nothing, a panic, or what the call on the store returns. -/
inductive PRes where
  | handle (n : Nat)
  | dropped
  | panicked
  | res (r : Res)
deriving DecidableEq, Repr

/-- How far a thread is in its call (src/mmkv.rs:43-55, 70-112, 181-220). -/
inductive Stage where
  /-- nothing done yet: before the look-up of `new` (src/mmkv.rs:71), waiting for the lock of the store (src/mmkv.rs:182, 190, 197,
  207-210), before `Drop::drop` (src/mmkv.rs:44) -/
  | start
  /-- `new`: between look-up and creation, src/mmkv.rs:81 -/
  | missed
  /-- holds the lock of the store: the write lock, or for a `get` the read lock -/
  | locked
  /-- `drop`: `Drop::drop` has run, src/mmkv.rs:43-55; the `Arc` is not yet released -/
  | unlisted (r : PRes)
  /-- `drop`: the last `Arc` is released, `IOLooper::drop` waits for the background thread of store `o`, src/core/io_looper.rs:97-99 -/
  | joining (o : Nat) (r : PRes)
  /-- about to return -/
  | done (r : PRes)
deriving DecidableEq, Repr

/-- A thread: in no call, or in a call (of src/mmkv.rs:43-220). -/
inductive PSt where
  | idle
  | busy (op : POp) (st : Stage)
deriving DecidableEq, Repr

/-- The process (src/mmkv.rs:33-41) with its threads: `readers` holds (thread, store) for every read lock held, `users` (thread, handle) for every call
through a handle. -/
structure Proc (ι : Type) where
  w : World ι
  th : Nat → PSt := fun _ => .idle
  readers : List (Nat × Nat) := []
  users : List (Nat × Nat) := []

/-- A step of src/mmkv.rs:43-220 or src/core/io_looper.rs:112-131: thread `t` makes a call; it goes on with it (with the key and nonce a store would be created with); it returns; a step of the
background thread of store `o`. -/
inductive PrEv (ι : Type) where
  | call (t : Nat) (op : POp)
  | go (t : Nat) (i : ι)
  | ret (t : Nat)
  | io (o : Nat) (ord : Order)

namespace Proc

/-- Thread `t` goes to `x` (bookkeeping; no source lines). -/
def goto (s : Proc ι) (t : Nat) (x : PSt) : Proc ι := { s with th := fun u => if u = t then x else s.th u }

/-- Handle `h` (src/mmkv.rs:36-41) was made with `d` and has not been dropped. -/
def live (s : Proc ι) (h : Nat) (d : String) : Bool :=
  match s.w.handles[h]? with
  | none => false
  | some hd => hd.st == .live && hd.dir == d

/-- The calls safe Rust lets a program make: through a handle (`&self`) while it lives and nobody drops it, and a drop (which takes the
handle) when no call through it is under way.  Tokens: src/core/buffer.rs:119-124. -/
def may (s : Proc ι) : POp → Bool
  | .new _ => true
  | .on h d op => op.ok && s.live h d && s.users.all fun u => u.2 != h || match s.th u.1 with
      | .busy (.drop _ _) _ => false
      | _ => true
  | .drop h d => s.live h d && s.users.all fun u => u.2 != h

/-- The handle a call goes through, the `&self` of src/mmkv.rs:181-206. -/
def handleOf : POp → Option Nat
  | .new _ => none
  | .on h _ _ => some h
  | .drop h _ => some h

/-- `new`, look-up or creation (src/mmkv.rs:71-111): what it returned to the thread. -/
def opened (s : Proc ι) (t : Nat) (d : String) : World ι × WRes → Option (Proc ι)
  | (w, .handle n) => some (({ s with w } : Proc ι).goto t (.busy (.new d) (.done (.handle n))))
  | (w, .panic) => some (({ s with w } : Proc ι).goto t (.busy (.new d) (.done .panicked)))
  | (w, .miss) => some (({ s with w } : Proc ι).goto t (.busy (.new d) .missed))
  | _ => none

/-- A step of a mutating call (src/mmkv.rs:181-186, 196-220): still under way, or returned. -/
def worked (s : Proc ι) (t : Nat) (op : POp) : World ι × WRes → Option (Proc ι)
  | (w, .quiet) => some (({ s with w } : Proc ι).goto t (.busy op .locked))
  | (w, .ret r) => some (({ s with w } : Proc ι).goto t (.busy op (.done (.res (resOf r)))))
  | _ => none

/-- Thread `t` goes on with its call: src/mmkv.rs:43-55, 70-112, 181-220; src/core/io_looper.rs:93-104 for the join. -/
def go (S : Sys ι) (s : Proc ι) (t : Nat) (i : ι) : Option (Proc ι) :=
  match s.th t with
  | .busy (.new d) .start => (World.step S s.w (.lookup d)).bind (s.opened t d)
  | .busy (.new d) .missed => (World.step S s.w (.create d i)).bind (s.opened t d)
  | .busy (.on h d (.mut m)) .start =>
    match s.w.handles[h]? with
    | none => none
    | some hd =>
      -- the write lock is free only if nobody reads
      if s.readers.all fun u => u.2 != hd.obj then (World.step S s.w (.call h d m)).bind (s.worked t (.on h d (.mut m))) else none
  | .busy (.on h d (.mut m)) .locked =>
    match s.w.handles[h]? with
    | none => none
    | some hd => (World.step S s.w (.cont hd.obj i)).bind (s.worked t (.on h d (.mut m)))
  | .busy (.on h d (.get k tok)) .start =>
    match s.w.handles[h]?, s.w.store? h with
    | some hd, some x =>
      -- the read lock is free if nobody holds the write lock
      if x.phase = .idle then some { s.goto t (.busy (.on h d (.get k tok)) .locked) with readers := (t, hd.obj) :: s.readers } else none
    | _, _ => none
  | .busy (.on h d (.get k tok)) .locked =>
    match s.w.store? h with
    | some x =>
      some { s.goto t (.busy (.on h d (.get k tok)) (.done (.res (x.getAs k tok fun bs => .ok (some bs))))) with
        readers := s.readers.filter fun u => u.1 != t }
    | none => none
  | .busy (.drop h d) .start =>
    match World.step S s.w (.drop1 h) with
    | some (w, .quiet) => some (({ s with w } : Proc ι).goto t (.busy (.drop h d) (.unlisted .dropped)))
    | some (w, .panic) => some (({ s with w } : Proc ι).goto t (.busy (.drop h d) (.unlisted .panicked)))
    | _ => none
  | .busy (.drop h d) (.unlisted r) =>
    match s.w.handles[h]?, World.step S s.w (.drop2 h) with
    | some hd, some (w, _) =>
      some (({ s with w } : Proc ι).goto t (.busy (.drop h d) (if w.strong hd.obj = 0 then .joining hd.obj r else .done r)))
    | _, _ => none
  | .busy (.drop h d) (.joining o r) =>
    match s.w.objs[o]? with
    | none => none
    | some ob =>
      if ob.inst.lp.io = .exited then some (s.goto t (.busy (.drop h d) (.done r)))
      -- `handle.join().unwrap()`
      else if ob.inst.lp.io = .dead then some (s.goto t (.busy (.drop h d) (.done .panicked)))
      else none
  | _ => none

/-- One step (src/mmkv.rs:43-220, src/core/io_looper.rs:112-131), and what an observer sees of it. -/
def step (S : Sys ι) (s : Proc ι) : PrEv ι → Option (Proc ι × Option (Spec.HEv POp PRes))
  | .call t op =>
    if s.th t = .idle ∧ s.may op = true then
      some ({ s.goto t (.busy op .start) with users := (handleOf op).toList.map (fun h => (t, h)) ++ s.users }, some (.inv t op))
    else none
  | .go t i => (s.go S t i).map fun s => (s, none)
  | .ret t =>
    match s.th t with
    | .busy _ (.done r) => some ({ s.goto t .idle with users := s.users.filter fun u => u.1 != t }, some (.res t r))
    | _ => none
  | .io o ord => (World.step S s.w (.io o ord)).map fun p => ({ s with w := p.1 }, none)

/-- A schedule of such steps: the state it ends in and the history observed. -/
def run (S : Sys ι) : Proc ι → List (PrEv ι) → Option (Proc ι × List (Spec.HEv POp PRes))
  | s, [] => some (s, [])
  | s, e :: es =>
    match step S s e with
    | none => none
    | some (s', v) => match run S s' es with
      | none => none
      | some (s'', h) => some (s'', v.toList ++ h)

end Proc
end Mmkv
