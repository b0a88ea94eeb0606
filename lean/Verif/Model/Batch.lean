import Verif.Model.Codec
import Verif.Model.RamForest

/-!
# Model of proof and undo serialisation (src/batchproof.cpp)

`big` is the byte order of the host. Allocation failure is not modelled.
-/

namespace Utreexo
namespace Batch

/-- The loop writing 32-bit positions (src/batchproof.cpp:41-44, 147-150); the conversion
`uint32_t(target)` keeps the low 32 bits. -/
def writePositions (big : Bool) : List Nat → List Byte → Nat → Res (List Byte × Nat)
  | [], buf, off => .ok (buf, off)
  | t :: ts, buf, off => do
    let buf ← memWrite buf off (Codec.writeBE32 big (BitVec.ofNat 32 t))
    let off ← addInt off 4
    writePositions big ts buf off

/-- The loop writing hashes (src/batchproof.cpp:46-49, 152-155). -/
def writeHashes : List Hash32 → List Byte → Nat → Res (List Byte × Nat)
  | [], buf, off => .ok (buf, off)
  | h :: hs, buf, off => do
    let buf ← memWrite buf off h.val
    let off ← addInt off 32
    writeHashes hs buf off

/-- `BatchProof::Serialize` (src/batchproof.cpp:27-50); `old` is the previous content of the
output vector. -/
def serialize (big : Bool) (p : BatchProof Hash32) (old : List Byte) : Res (List Byte) := do
  let buf := vecResize old (4 + 4 + p.targets.length * 4 + p.hashes.length * 32) 0#8
  let buf ← memWrite buf 0 (Codec.writeBE32 big (BitVec.ofNat 32 p.targets.length))
  let off ← addInt 0 4
  let buf ← memWrite buf off (Codec.writeBE32 big (BitVec.ofNat 32 p.hashes.length))
  let off ← addInt off 4
  let (buf, off) ← writePositions big p.targets buf off
  let (buf, _) ← writeHashes p.hashes buf off
  return buf

/-- The loop reading 32-bit positions (src/batchproof.cpp:74-78, 180-183). -/
def readPositions (big : Bool) (bytes : List Byte) : Nat → Nat → Res (List Nat × Nat)
  | 0, off => .ok ([], off)
  | k + 1, off => do
    let bs ← memRead bytes off 4
    let off' ← addInt off 4
    let (ts, o) ← readPositions big bytes k off'
    return ((Codec.readBE32 big bs).toNat :: ts, o)

/-- Reading a 32-byte hash. -/
def readHash (bytes : List Byte) (off : Nat) : Res Hash32 :=
  if h : off + 32 ≤ bytes.length then
    .ok ⟨(bytes.drop off).take 32, by simp; omega⟩
  else .error .ub

/-- The loop reading hashes (src/batchproof.cpp:82-87, 185-190). -/
def readHashes (bytes : List Byte) : Nat → Nat → Res (List Hash32 × Nat)
  | 0, off => .ok ([], off)
  | k + 1, off => do
    let h ← readHash bytes off
    let off' ← addInt off 32
    let (hs, o) ← readHashes bytes k off'
    return (h :: hs, o)

/-- `BatchProof::Unserialize` (src/batchproof.cpp:52-93) on an object with previous value `old`.
`m_sorted_targets` is not cleared, the decoded targets are appended to it. -/
def unserialize (big : Bool) (old : BatchProof Hash32) (bytes : List Byte) :
    Res (Bool × BatchProof Hash32) :=
  if bytes.length < 8 then .ok (false, old)
  else do
    let numTargets := (Codec.readBE32 big (← memRead bytes 0 4)).toNat
    let off ← addInt 0 4
    let numHashes := (Codec.readBE32 big (← memRead bytes off 4)).toNat
    let off ← addInt off 4
    if bytes.length ≠ 8 + numTargets * 4 + numHashes * 32 then return (false, old)
    else
      let (ts, off) ← readPositions big bytes numTargets off
      let (hs, off) ← readHashes bytes numHashes off
      cassert (off = bytes.length)
      return (true, { targets := ts, sorted := St.sortU64 (old.sorted ++ ts), hashes := hs })

/-- `UndoBatch::Serialize` (src/batchproof.cpp:133-156). -/
def serializeUndo (big : Bool) (u : UndoBatch Hash32) (old : List Byte) : Res (List Byte) := do
  let buf := vecResize old (4 + 4 + 4 * u.positions.length + 32 * u.hashes.length) 0#8
  let buf ← memWrite buf 0 (Codec.writeBE32 big (BitVec.ofNat 32 u.numAdds))
  let off ← addInt 0 4
  let buf ← memWrite buf off (Codec.writeBE32 big (BitVec.ofNat 32 u.positions.length))
  let off ← addInt off 4
  let (buf, off) ← writePositions big u.positions buf off
  let (buf, _) ← writeHashes u.hashes buf off
  return buf

/-- `UndoBatch::Unserialize` (src/batchproof.cpp:158-195). The length check is computed in
`unsigned int`, i.e. modulo `2^32` (line 171). -/
def unserializeUndo (big : Bool) (old : UndoBatch Hash32) (bytes : List Byte) :
    Res (Bool × UndoBatch Hash32) :=
  if bytes.length < 8 then .ok (false, old)
  else do
    let numAdds := (Codec.readBE32 big (← memRead bytes 0 4)).toNat
    let off ← addInt 0 4
    let numTargets := (Codec.readBE32 big (← memRead bytes off 4)).toNat
    let off ← addInt off 4
    if bytes.length ≠ (4 + 4 + 4 * numTargets + 32 * numTargets) % 2 ^ 32 then
      return (false, { old with numAdds := numAdds })
    else
      let (ts, off) ← readPositions big bytes numTargets off
      let (hs, off) ← readHashes bytes numTargets off
      cassert (off = bytes.length)
      return (true, { numAdds := numAdds, positions := ts, hashes := hs })

/-- `BatchProof::operator==` (src/batchproof.cpp:108-112): the sorted copy is not compared. -/
def proofEq (a b : BatchProof Hash32) : Bool := a.targets == b.targets && a.hashes == b.hashes

/-- `UndoBatch::operator==` (src/batchproof.cpp:203-210). -/
def undoEq (a b : UndoBatch Hash32) : Bool :=
  a.numAdds == b.numAdds && a.positions.length == b.positions.length && a.hashes.length == b.hashes.length &&
    a.positions == b.positions && a.hashes == b.hashes

end Batch
end Utreexo
