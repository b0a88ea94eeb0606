import Verif.Model.Batch

/-!
# Model of proof and undo objects over several calls (include/batchproof.h, src/batchproof.cpp)

The other models take the value of an object and give back its new value. Here a single object goes through a sequence of calls. A
member that no constructor and no call has written is indeterminate; reading it is undefined behaviour.
-/

namespace Utreexo
namespace Object

/-- An `UndoBatch` object (include/batchproof.h:57-63). `numAdds` is `none` until `m_num_additions` has been written. -/
structure UndoObj where
  numAdds : Option Nat
  positions : List Nat
  hashes : List Hash32
deriving DecidableEq

/-- `UndoBatch() {}` (include/batchproof.h:71): the vectors are empty, `m_num_additions` is not initialised. -/
def UndoObj.new : UndoObj := { numAdds := none, positions := [], hashes := [] }

/-- `UndoBatch(num_adds, deleted_positions, deleted_hashes)` (include/batchproof.h:65-70), and the assignment of such an object, by
which `BuildUndoBatch` returns its result (src/ram_forest.cpp:374). -/
def UndoObj.of (u : UndoBatch Hash32) : UndoObj := { numAdds := some u.numAdds, positions := u.positions, hashes := u.hashes }

/-- `UndoBatch::GetNumAdds` (src/batchproof.cpp:197), also the read of `m_num_additions` in `Serialize` (line 142), `operator==`
(line 205) and `Print` (line 214). -/
def UndoObj.getNumAdds (o : UndoObj) : Res Nat :=
  match o.numAdds with
  | some n => .ok n
  | none => .error .ub

/-- The value of the object for a call that reads all of it, such as `RamForest::Undo`. -/
def UndoObj.value (o : UndoObj) : Res (UndoBatch Hash32) := do
  let n ← o.getNumAdds
  return { numAdds := n, positions := o.positions, hashes := o.hashes }

/-- `UndoBatch::Serialize` (src/batchproof.cpp:133-156) on an object. -/
def UndoObj.serialize (big : Bool) (o : UndoObj) (old : List Byte) : Res (List Byte) := do
  let u ← o.value
  Batch.serializeUndo big u old

/-- `UndoBatch::operator==` (src/batchproof.cpp:203-210) on objects. -/
def UndoObj.eq (a b : UndoObj) : Res Bool := do
  let m ← a.getNumAdds
  let n ← b.getNumAdds
  return Batch.undoEq { numAdds := m, positions := a.positions, hashes := a.hashes }
    { numAdds := n, positions := b.positions, hashes := b.hashes }

/-- `UndoBatch::Unserialize` (src/batchproof.cpp:158-195) on an object. It writes `m_num_additions` before the length check (line 166)
and never reads it. -/
def UndoObj.unserialize (big : Bool) (o : UndoObj) (bytes : List Byte) : Res (Bool × UndoObj) :=
  if bytes.length < 8 then .ok (false, o)
  else do
    let numAdds := (Codec.readBE32 big (← memRead bytes 0 4)).toNat
    let o := { o with numAdds := some numAdds }
    let off ← addInt 0 4
    let numTargets := (Codec.readBE32 big (← memRead bytes off 4)).toNat
    let off ← addInt off 4
    if bytes.length ≠ (4 + 4 + 4 * numTargets + 32 * numTargets) % 2 ^ 32 then return (false, o)
    else
      let (ts, off) ← Batch.readPositions big bytes numTargets off
      let (hs, off) ← Batch.readHashes bytes numTargets off
      cassert (off = bytes.length)
      return (true, { o with positions := ts, hashes := hs })

/-- The calls that change an `UndoBatch` object: assigning a batch with a value to it, and decoding. -/
inductive UndoCall
  | assign (u : UndoBatch Hash32)
  | decode (bytes : List Byte)

/-- The effect of a call on the object; what `Unserialize` returns is ignored. -/
def undoCall (big : Bool) (o : UndoObj) : UndoCall → Res UndoObj
  | .assign u => .ok (.of u)
  | .decode bytes => do
    let (_, o) ← o.unserialize big bytes
    return o

/-- The effect of a sequence of calls. -/
def undoCalls (big : Bool) (o : UndoObj) (cs : List UndoCall) : Res UndoObj := cs.foldlM (undoCall big) o

/-- The calls that change a `BatchProof` object: assigning a constructed proof (include/batchproof.h:22-26), as `Prove` does
(src/accumulator.cpp:269), `SetNull` (lines 30-35) and decoding. -/
inductive ProofCall
  | assign (targets : List Nat) (hashes : List Hash32)
  | setNull
  | decode (bytes : List Byte)

/-- The effect of a call on the object; what `Unserialize` returns is ignored. -/
def proofCall (big : Bool) (p : BatchProof Hash32) : ProofCall → Res (BatchProof Hash32)
  | .assign ts hs => .ok (BatchProof.mk' ts hs)
  | .setNull => .ok { targets := [], sorted := [], hashes := [] }
  | .decode bytes => do
    let (_, p) ← Batch.unserialize big p bytes
    return p

/-- The effect of a sequence of calls. -/
def proofCalls (big : Bool) (p : BatchProof Hash32) (cs : List ProofCall) : Res (BatchProof Hash32) := cs.foldlM (proofCall big) p

end Object
end Utreexo
