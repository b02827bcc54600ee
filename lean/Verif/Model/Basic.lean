/-!
# Basic vocabulary of the model

Results, errors, byte strings, big-endian integers and the `HashMap` abstraction.
-/

namespace Mmkv

/-- `Vec<u8>`, `&[u8]` and the contents of the mapped file. -/
abbrev Bytes := List UInt8

/-- `crate::Error`, src/lib.rs:19-33 (with the two variants of the `encryption` feature). -/
inductive Error where
  | keyNotFound
  | decodeFailed (reason : String)
  | typeMissMatch
  | dataInvalid
  | instanceClosed
  | encodeFailed (reason : String)
  | ioError (reason : String)
  | lockError (reason : String)
  | decryptFailed (reason : String)
  | encryptFailed (reason : String)
deriving DecidableEq, Repr

/-- Outcome of a Rust call returning `crate::Result<α>` (src/lib.rs:35) that may also panic. -/
inductive Out (α : Type) where
  | ok (a : α)
  | err (e : Error)
  | panic
deriving DecidableEq, Repr

/-- Outcome of a call that mutates a state through `&mut` and may panic half-way: the state
reached is kept in both cases, because stores into the mapped file survive the unwinding. -/
inductive Run (σ : Type) where
  | done (s : σ)
  | panic (s : σ)
deriving DecidableEq, Repr

namespace Run

/-- The state reached, whether or not the call panicked. -/
def state {σ : Type} : Run σ → σ
  | done s => s
  | panic s => s

/-- Sequencing: a panic skips the rest. -/
def andThen {σ : Type} : Run σ → (σ → Run σ) → Run σ
  | done s, f => f s
  | panic s, _ => panic s

/-- The call returned normally. -/
def isDone {σ : Type} : Run σ → Bool
  | done _ => true
  | panic _ => false

@[simp] theorem state_done {σ} (s : σ) : (Run.done s).state = s := rfl
@[simp] theorem state_panic {σ} (s : σ) : (Run.panic s).state = s := rfl
@[simp] theorem andThen_done {σ} (s : σ) (f : σ → Run σ) : (Run.done s).andThen f = f s := rfl
@[simp] theorem andThen_panic {σ} (s : σ) (f : σ → Run σ) : (Run.panic s).andThen f = .panic s := rfl
@[simp] theorem isDone_done {σ} (s : σ) : (Run.done s).isDone = true := rfl
@[simp] theorem isDone_panic {σ} (s : σ) : (Run.panic s).isDone = false := rfl

end Run

/-- `to_be_bytes` of an unsigned integer of `n` bytes (bits above `8*n` are dropped, which is the
`as u32` truncation where the code makes one). -/
def beBytes : (n : Nat) → (v : Nat) → Bytes
  | 0, _ => []
  | n + 1, v => UInt8.ofNat (v / 256 ^ n) :: beBytes n v

/-- `from_be_bytes`: the value of a big-endian byte string. -/
def beVal (bs : Bytes) : Nat := bs.foldl (fun acc b => acc * 256 + b.toNat) 0

/-- The UTF-8 bytes of a string: `str::as_bytes`. -/
def strBytes (s : String) : Bytes := s.toByteArray.data.toList

/-- `String::from_utf8(..).ok()` / the UTF-8 check of the protobuf reader. -/
def strOfBytes (bs : Bytes) : Option String := String.fromUTF8? ⟨bs.toArray⟩

/-! ### `HashMap<String, V>`

An association list with unique keys.  The iteration order of Rust's `HashMap` is random, so
everything that iterates takes the order as an explicit argument. -/

/-- `HashMap<String, V>`. -/
abbrev KvMap (V : Type) := List (String × V)

namespace KvMap
variable {V : Type}

/-- `HashMap::get`. -/
def get (m : KvMap V) (k : String) : Option V := (m.find? (fun p => p.1 == k)).map (·.2)

/-- `HashMap::remove` (the map left behind). -/
def erase (m : KvMap V) (k : String) : KvMap V := m.filter (fun p => p.1 != k)

/-- `HashMap::insert` (the map left behind). -/
def insert (m : KvMap V) (k : String) (v : V) : KvMap V := (k, v) :: m.erase k

/-- `HashMap::values`, in the list's own order; callers apply a permutation. -/
def values (m : KvMap V) : List V := m.map (·.2)

/-- Each key occurs once. -/
def UniqueKeys (m : KvMap V) : Prop := (m.map (·.1)).Nodup

end KvMap
end Mmkv
