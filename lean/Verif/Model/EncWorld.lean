import Verif.Model.Proc
import Verif.Model.Encrypt
/-!
# A whole process with the `encryption` feature

`Model/World` and `Model/Proc` leave open which key and nonce a store is opened with.  Here they are determined: each directory has a key
and a nonce file (`mini_mmkv.meta`, src/core/encrypt.rs:45-52), which `StreamWrapper::init` reads or creates (src/core/encrypt.rs:56-103) whenever a
store is opened, by `new` or at the end of `clear_data`, and which the removal job of `clear_data` removes after the data file
(src/core/mmkv_impl.rs:107-110).  Simplification: one key per directory (what other keys do: C11, C12, C24); the two removals of the
job are one step.
-/

namespace Mmkv

/-- The process with the `encryption` feature: cipher, page size and directories.  `Encryptor::init` takes keys of sixteen bytes,
src/core/encrypt.rs:34-43. -/
def encProcess (C : Cipher) (page : Nat) (fileOf : String → Nat) (dirOk : String → Bool) : Sys (Bytes × Bytes) :=
  { codecs := encrypted C, page, fileOf, dirOk, keyOk := fun i => i.1.length == 16 }

/-- Key and nonce a store on directory `f` is opened with, src/core/encrypt.rs:34-43: `keys` are the key strings, `n` the contents of the nonce
files (`none`: missing), `rand` what `OsRng` would yield.  (A malformed key: `[]`, which `keyOk` refuses.) -/
def openIdx (keys : Nat → String) (n : Nat → Option Bytes) (f : Nat) (rand : Bytes) : Bytes × Bytes :=
  ((decodeKey (keys f)).getD [], initNonce (n f) rand)

/-- Key and nonce an event would open a store with: `new` (src/mmkv.rs:99-103), the end of `clear_data` (src/mmkv.rs:212-219). -/
def WEv.openIdx {ι : Type} (S : Sys ι) (keys : Nat → String) (n : Nat → Option Bytes) (w : World ι) : WEv Bytes → Bytes × Bytes
  | .create d rand => Mmkv.openIdx keys n (S.fileOf d) rand
  | .cont o rand =>
    match w.objs[o]? with
    | some ob => Mmkv.openIdx keys n (S.fileOf ob.dir) rand
    | none => ([], [])
  | _ => ([], [])

/-- The event with that key and nonce in place of the random bytes (no source lines). -/
def WEv.at {α ι : Type} (i : ι) : WEv α → WEv ι
  | .lookup d => .lookup d
  | .create d _ => .create d i
  | .call h d m => .call h d m
  | .cont o _ => .cont o i
  | .io o ord => .io o ord
  | .drop1 h => .drop1 h
  | .drop2 h => .drop2 h

/-- One nonce file gets a new content, or is removed (bookkeeping; no source lines). -/
def setNonce (n : Nat → Option Bytes) (f : Nat) (x : Option Bytes) : Nat → Option Bytes := fun g => if g = f then x else n g

/-- The nonce files after an event that leads from `w` to `w'`: an open leaves the nonce it uses (src/core/encrypt.rs:56-103, after the key has been
decoded, line 35), the removal job of the background thread removes the file (src/core/mmkv_impl.rs:107-110). -/
def World.noncesAfter {ι : Type} (S : Sys ι) (keys : Nat → String) (n : Nat → Option Bytes) (w w' : World ι) : WEv Bytes → Nat → Option Bytes
  | .create d rand =>
    if w.poisoned = false ∧ w.upgrade d = none ∧ S.dirOk d = true ∧ (decodeKey (keys (S.fileOf d))).isSome = true then
      setNonce n (S.fileOf d) (some (initNonce (n (S.fileOf d)) rand))
    else n
  | .cont o rand =>
    match w.objs[o]? with
    | some ob =>
      if ob.inst.phase = .clrOpen ∧ (decodeKey (keys (S.fileOf ob.dir))).isSome = true then
        setNonce n (S.fileOf ob.dir) (some (initNonce (n (S.fileOf ob.dir)) rand))
      else n
    | none => n
  | .io o _ =>
    match w.objs[o]?, w'.objs[o]? with
    | some ob, some ob' => if ob.inst.lp.cb.removed = false ∧ ob'.inst.lp.cb.removed = true then setNonce n (S.fileOf ob.dir) none else n
    | _, _ => n
  | _ => n

/-- The event of the process a step of a thread is (src/mmkv.rs:43-55, 70-112, 181-220), if it is one. -/
def Proc.worldEv {α ι : Type} (s : Proc ι) : PrEv α → Option (WEv α)
  | .go t a =>
    match s.th t with
    | .busy (.new d) .start => some (.lookup d)
    | .busy (.new d) .missed => some (.create d a)
    | .busy (.on h d (.mut m)) .start => some (.call h d m)
    | .busy (.on h _ (.mut _)) .locked => (s.w.handles[h]?).map fun hd => .cont hd.obj a
    | .busy (.drop h _) .start => some (.drop1 h)
    | .busy (.drop h _) (.unlisted _) => some (.drop2 h)
    | _ => none
  | .io o ord => some (.io o ord)
  | _ => none

/-- The process with its threads (`Proc`) and the nonce files of its directories (src/core/encrypt.rs:45-52). -/
structure EncThreads where
  p : Proc (Bytes × Bytes)
  nonces : Nat → Option Bytes

namespace EncThreads

/-- Key and nonce (src/core/encrypt.rs:34-43) a step would open a store with. -/
def idx (S : Sys (Bytes × Bytes)) (keys : Nat → String) (s : EncThreads) (e : PrEv Bytes) : Bytes × Bytes :=
  match s.p.worldEv e with
  | some we => we.openIdx S keys s.nonces s.p.w
  | none => ([], [])

/-- The step of `Proc`, with that key and nonce in place of the random bytes (no source lines). -/
def event (S : Sys (Bytes × Bytes)) (keys : Nat → String) (s : EncThreads) : PrEv Bytes → PrEv (Bytes × Bytes)
  | .call t op => .call t op
  | .go t rand => .go t (s.idx S keys (.go t rand))
  | .ret t => .ret t
  | .io o ord => .io o ord

/-- One step (src/mmkv.rs:43-220, src/core/io_looper.rs:112-131, src/core/encrypt.rs:34-103).  `go t rand`: `rand` is what `OsRng` would yield should
the step need a nonce. -/
def step (S : Sys (Bytes × Bytes)) (keys : Nat → String) (s : EncThreads) (e : PrEv Bytes) :
    Option (EncThreads × Option (Spec.HEv POp PRes)) :=
  match s.p.step S (s.event S keys e) with
  | none => none
  | some (p, v) =>
    some (⟨p, match s.p.worldEv e with
      | some we => World.noncesAfter S keys s.nonces s.p.w p.w we
      | none => s.nonces⟩, v)

/-- A schedule of such steps: the state it ends in and the history observed. -/
def run (S : Sys (Bytes × Bytes)) (keys : Nat → String) : EncThreads → List (PrEv Bytes) → Option (EncThreads × List (Spec.HEv POp PRes))
  | s, [] => some (s, [])
  | s, e :: es =>
    match step S keys s e with
    | none => none
    | some (s', v) => match run S keys s' es with
      | none => none
      | some (s'', h) => some (s'', v.toList ++ h)

/-- Directory `f` as whoever opens it next finds it: data file and nonce file (src/core/config.rs:15-34, src/core/encrypt.rs:45-52). -/
def dir (s : EncThreads) (f : Nat) : EncDir := ⟨(s.p.w.fileAt f).getD [], s.nonces f⟩

end EncThreads

/-- The process without its threads (`World`) and the nonce files of its directories (src/core/encrypt.rs:45-52). -/
structure EncWorld where
  w : World (Bytes × Bytes)
  nonces : Nat → Option Bytes

namespace EncWorld

/-- One event of the process (src/mmkv.rs:43-220, src/core/io_looper.rs:112-131, src/core/encrypt.rs:34-103); the bytes in `create` and `cont` are what
`OsRng` would yield should the event need a nonce. -/
def step (S : Sys (Bytes × Bytes)) (keys : Nat → String) (s : EncWorld) (e : WEv Bytes) : Option (EncWorld × WRes) :=
  match s.w.step S (e.at (e.openIdx S keys s.nonces s.w)) with
  | none => none
  | some (w, r) => some (⟨w, World.noncesAfter S keys s.nonces s.w w e⟩, r)

/-- A history of such events: the state it ends in and what each returned. -/
def run (S : Sys (Bytes × Bytes)) (keys : Nat → String) : EncWorld → List (WEv Bytes) → Option (EncWorld × List WRes)
  | s, [] => some (s, [])
  | s, e :: es =>
    match step S keys s e with
    | none => none
    | some (s', r) => match run S keys s' es with
      | none => none
      | some (s'', rs) => some (s'', r :: rs)

/-- Directory `f` as whoever opens it next finds it: data file and nonce file (src/core/config.rs:15-34, src/core/encrypt.rs:45-52). -/
def dir (s : EncWorld) (f : Nat) : EncDir := ⟨(s.w.fileAt f).getD [], s.nonces f⟩

end EncWorld
end Mmkv
