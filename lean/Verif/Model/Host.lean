import Verif.Model.World
/-!
# Several processes on one file system

README.md:18-19: a directory may be used from several processes.  Each process has its own registry, handles and stores
(`World`); the data files are shared: names and inodes belong to the file system, and the mappings are `MAP_SHARED`
(src/core/memory_map.rs:29-36).  Unlike `Model/Turns`, everything a process can do is included, also `clear_data`, which unlinks
the file by name (src/core/writer.rs:104-106) whoever else has it open.
-/

namespace Mmkv
variable {ι : Type}

/-- The processes (`none`: ended) and the file system.  Names and inodes recorded inside a process are not used. -/
structure Host (ι : Type) where
  procs : List (Option (World ι)) := []
  names : Nat → Option Nat
  inodes : List Bytes

/-- A process starts, ends (is killed, or exits: what its threads had not done stays undone), or does something. -/
inductive HostEv (ι : Type) where
  | spawn
  | kill (p : Nat)
  | on (p : Nat) (e : WEv ι)

/-- A process seen with the files of the host. -/
def World.withFs (w : World ι) (names : Nat → Option Nat) (inodes : List Bytes) : World ι := { w with names, inodes }

/-- A process without files. -/
def World.alone (w : World ι) : World ι := w.withFs (fun _ => none) []

namespace Host

/-- Content of the file with a given name, if it exists. -/
def fileAt (h : Host ι) (name : Nat) : Option Bytes := (h.names name).map fun n => h.inodes[n]?.getD []

/-- Process `p`, with the files. -/
def proc? (h : Host ι) (p : Nat) : Option (World ι) :=
  match h.procs[p]? with
  | some (some w) => some (w.withFs h.names h.inodes)
  | _ => none

/-- One event, and what it returned to process `p`.  Simplification: a mapping is `World`'s, whose length does not change when another
process extends the file; steps of different processes do not overlap. -/
def step (S : Sys ι) (h : Host ι) : HostEv ι → Option (Host ι × Option (Nat × WRes))
  | .spawn => some ({ h with procs := h.procs ++ [some (World.start (fun _ => none) [])] }, none)
  | .kill p =>
    match h.procs[p]? with
    | some (some _) => some ({ h with procs := h.procs.set p none }, none)
    | _ => none
  | .on p e =>
    match h.procs[p]? with
    | some (some w) =>
      match World.step S (w.withFs h.names h.inodes) e with
      | none => none
      | some (w', r) => some (⟨h.procs.set p (some w'.alone), w'.names, w'.inodes⟩, some (p, r))
    | _ => none

/-- A history of the host: its final state and what the events returned, to whom. -/
def run (S : Sys ι) : Host ι → List (HostEv ι) → Option (Host ι × List (Nat × WRes))
  | h, [] => some (h, [])
  | h, e :: es =>
    match step S h e with
    | none => none
    | some (h', r) => match run S h' es with
      | none => none
      | some (h'', rs) => some (h'', r.toList ++ rs)

end Host
end Mmkv
