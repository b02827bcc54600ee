import Verif.Model.Store
/-!
# Death of the process inside a background write

The mapping is shared (`MAP_SHARED`, src/core/memory_map.rs:28), so what has been stored into it survives the process.
A write is a sequence of stores and resizes (`Eff`); the process can die before any of them, or inside a
`copy_from_slice`, with some of its bytes stored and others not, in any combination (`memcpy` promises no order).
`set_len` is one system call, hence atomic.  Power loss, where the page cache itself is lost, is not modelled.
-/

namespace Mmkv

/-- The stores and resizes a call of `IOWriter::write` makes, in order (src/core/writer.rs:39-97). -/
def WState.effects (c : Codec) (order : List Buffer → List Buffer) (b : Buffer) (dup : Bool) (s : WState) : List Eff :=
  (s.write c order b dup).state.log.drop s.log.length

/-- `Crash file effs f`: while the effects `effs` were being made on `file`, the process died and left `f`. -/
inductive Crash : Bytes → List Eff → Bytes → Prop
  /-- before the next effect, or after the last one -/
  | here (file : Bytes) (effs : List Eff) : Crash file effs file
  /-- inside a store: each byte is the old one or the new one -/
  | torn (file : Bytes) (off : Nat) (bs bs' : Bytes) (rest : List Eff) (hlen : bs'.length = bs.length)
      (hmix : ∀ (i : Nat) (x : UInt8), bs'[i]? = some x → bs[i]? = some x ∨ file[off + i]? = some x) :
      Crash file (.store off bs :: rest) (splice file off bs')
  /-- after this effect -/
  | later (file : Bytes) (e : Eff) (rest : List Eff) (f : Bytes) (h : Crash (e.apply file) rest f) :
      Crash file (e :: rest) f

end Mmkv
