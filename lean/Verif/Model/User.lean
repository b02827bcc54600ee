import Verif.Model.Instance
/-!
# Values of user-defined types: the user's code inside `put` and `get`

`MMKV::put` takes the write lock and only then calls the user's `type_token` and `to_bytes` (`Buffer::new(key, value)` is an
argument of the call made on the guard, src/mmkv.rs:181-186); `MMKV::get` calls the user's `type_token` and `from_bytes`
under the read lock (src/mmkv.rs:189-194).  A panic that unwinds through a write guard poisons the lock; one that unwinds
through a read guard does not.
-/

namespace Mmkv

/-- What happens to a store whose users have their own types: an event of the store, or a `put` of a value of a user's type
whose `type_token` is `TypeToken::new(token)` and whose `to_bytes` returns the given bytes, or panics (`none`). -/
inductive UEv (ι : Type) where
  | ev (e : Ev ι)
  | putUser (key : String) (token : BitVec 32) (toBytes : Option Bytes)

variable {ι : Type}

namespace Inst

/-- `MMKV::put` of a user's type, src/mmkv.rs:181-186: the lock; then `Buffer::new` (src/core/buffer.rs:37-39), which
evaluates `TypeToken::new` (119-124, panics on a reserved token) and `to_bytes`; then `MmkvImpl::put`. -/
def stepU (codecs : ι → Codec) (s : Inst ι) : UEv ι → Option (Inst ι × Option (Out Unit))
  | .ev e => step codecs s e
  | .putUser key token toBytes =>
    if s.phase ≠ .idle then none
    else if s.poisoned then some (s, some (.err (.lockError "")))
    else match typeTokenNew token, toBytes with
      | .ok t, some bs => step codecs s (.put key t bs)
      | _, _ => some ({ s with poisoned := true }, some .panic)

/-- A history with user-defined types. -/
def runU (codecs : ι → Codec) : Inst ι → List (UEv ι) → Option (Inst ι × List (Out Unit))
  | s, [] => some (s, [])
  | s, e :: es =>
    match stepU codecs s e with
    | none => none
    | some (s', r) => match runU codecs s' es with
      | none => none
      | some (s'', rs) => some (s'', r.toList ++ rs)

/-- `MMKV::get` at a user's type, src/mmkv.rs:189-194, src/core/buffer.rs:41-44: `type_token` is called once the key is found,
under the read lock; no state is changed whatever the user's code does. -/
def getUser {α : Type} (s : Inst ι) (key : String) (token : BitVec 32) (fromB : Bytes → Out α) : Out α :=
  if s.poisoned then .err (.lockError "")
  else if s.valid = false then .err .instanceClosed
  else match s.kv.get key with
    | none => .err .keyNotFound
    | some b => match typeTokenNew token with
      | .ok t => b.parseAs t fromB
      | _ => .panic

end Inst
end Mmkv
