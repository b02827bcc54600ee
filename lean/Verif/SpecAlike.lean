import Verif.Model.Session
import Verif.Model.Encrypt
/-!
# What an observer may learn: histories that differ only in the contents of keys and values

Used by C95.  `ρ` renames keys; the two histories make the same calls, at the same types, with values of the same length.
-/

namespace Mmkv
variable {ι : Type}

/-- Two records of which an observer of sizes knows no difference: renamed key, same type, value of the same length. -/
def Similar (ρ : String → String) (b b' : Buffer) : Prop :=
  b'.key = ρ b.key ∧ b'.type = b.type ∧ b'.value.length = b.value.length

/-- Two lists, element by element. -/
inductive Pairwise2 {α β : Type} (R : α → β → Prop) : List α → List β → Prop
  | nil : Pairwise2 R [] []
  | cons {a b l l'} (h : R a b) (t : Pairwise2 R l l') : Pairwise2 R (a :: l) (b :: l')

/-- Two hash maps yield corresponding values in the same order. -/
def SameOrder (ρ : String → String) (o o' : Order) : Prop :=
  ∀ l l', Pairwise2 (Similar ρ) l l' → Pairwise2 (Similar ρ) (o l) (o' l')

/-- The same thing happens, up to the contents of keys and values, and to the encryption keys and nonces in use. -/
inductive EvAlike (ρ : String → String) : Ev ι → Ev ι → Prop
  | put (k : String) (t : BitVec 32) (bs bs' : Bytes) (h : bs'.length = bs.length) : EvAlike ρ (.put k t bs) (.put (ρ k) t bs')
  | delete (k : String) : EvAlike ρ (.delete k) (.delete (ρ k))
  | clear : EvAlike ρ .clear .clear
  | api (i i' : ι) : EvAlike ρ (.api i) (.api i')
  | drop : EvAlike ρ .drop .drop
  | io (o o' : Order) (h : SameOrder ρ o o') : EvAlike ρ (.io o) (.io o')

/-- The same session, up to the contents of keys and values. -/
structure Session.Alike (ρ : String → String) (x x' : Session ι) : Prop where
  evs : Pairwise2 (EvAlike ρ) x.evs x'.evs
  clean : x'.clean = x.clean

/-- The same session of an encrypted store, up to the contents of keys and values, the encryption key, the nonces and
the point between the two removals of `clear_data` at which it may have ended. -/
structure EncSession.Alike (ρ : String → String) (x x' : EncSession) : Prop where
  evs : Pairwise2 (EvAlike ρ) x.evs x'.evs
  clean : x'.clean = x.clean

/-- Two answers of a read of bytes, one as good as the other to someone who sees no contents: the same error, or two
values of the same length. -/
def SameLook (r r' : Out Bytes) : Prop :=
  match r, r' with
  | .ok v, .ok v' => v'.length = v.length
  | .err e, .err e' => e' = e
  | .panic, .panic => True
  | _, _ => False

/-- Different keys stay different, and are as many bytes long as before. -/
structure Renames (ρ : String → String) : Prop where
  inj : ∀ a b, ρ a = ρ b → a = b
  len : ∀ a, (strBytes (ρ a)).length = (strBytes a).length

/-- Where and how much a change of the file writes: a store (`true`) of so many bytes at an offset, or a new length. -/
def Eff.span : Eff → Bool × Nat × Nat
  | .store off bs => (true, off, bs.length)
  | .setLen n => (false, n, 0)

/-- What an observer sees of two stores that learns sizes and places only: the length of the data file, its header, every
change made to the file since it was opened or created (which offset, how many bytes), whether the background thread
waits, and of each key (up to renaming) whether it is there, at which type, and the length of its value. -/
structure SeenAs (ρ : String → String) (s s' : Inst ι) : Prop where
  len : s'.disk.length = s.disk.length
  head : s'.disk.take 8 = s.disk.take 8
  writes : s'.lp.cb.ws.log.map Eff.span = s.lp.cb.ws.log.map Eff.span
  thread : s'.lp.io = s.lp.io
  reads : ∀ k t, SameLook (s.getAs k t .ok) (s'.getAs (ρ k) t .ok)

end Mmkv
