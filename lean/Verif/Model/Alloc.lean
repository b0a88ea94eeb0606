import Verif.Model.Batch
import Verif.Model.Pollard

/-!
# Memory requested for an input

The two decoders again, each with the memory that it requests from the vectors of the object before it reads the entries, and
`Verify` with the number of objects that it creates. `std::vector::reserve` requests memory for all of its entries at once. The
entries are 8 bytes (`uint64_t`) or 32 bytes (`Hash`). A vector that has the capacity already requests nothing, so that the numbers
are exact for a fresh object and upper bounds otherwise.
-/

namespace Utreexo

/-- The bytes requested so far, one entry for each request, and the outcome. The requests are kept if the computation faults. -/
structure Claim (α : Type) where
  req : List Nat
  out : Res α

namespace Claim

/-- A step that requests no memory. -/
def of {α : Type} (x : Res α) : Claim α := ⟨[], x⟩

/-- One step after the other. -/
def bind {α β : Type} (x : Claim α) (f : α → Claim β) : Claim β :=
  match x.out with
  | .ok a => ⟨x.req ++ (f a).req, (f a).out⟩
  | .error e => ⟨x.req, .error e⟩

instance : Monad Claim where
  pure a := ⟨[], .ok a⟩
  bind := bind

/-- `std::vector::reserve` for `count` entries of `size` bytes. -/
def reserve (count size : Nat) : Claim Unit := ⟨[count * size], .ok ()⟩

end Claim

namespace Batch
open Claim

/-- `BatchProof::Unserialize` (src/batchproof.cpp:52-93) with the requests of lines 71-73. -/
def unserializeA (big : Bool) (old : BatchProof Hash32) (bytes : List Byte) : Claim (Bool × BatchProof Hash32) :=
  if bytes.length < 8 then of (.ok (false, old))
  else do
    let numTargets := (Codec.readBE32 big (← of (memRead bytes 0 4))).toNat
    let off ← of (addInt 0 4)
    let numHashes := (Codec.readBE32 big (← of (memRead bytes off 4))).toNat
    let off ← of (addInt off 4)
    if bytes.length ≠ 8 + numTargets * 4 + numHashes * 32 then return (false, old)
    else
      reserve numTargets 8
      reserve numTargets 8
      reserve numHashes 32
      let (ts, off) ← of (readPositions big bytes numTargets off)
      let (hs, off) ← of (readHashes bytes numHashes off)
      of (cassert (off = bytes.length))
      return (true, { targets := ts, sorted := St.sortU64 (old.sorted ++ ts), hashes := hs })

/-- `UndoBatch::Unserialize` (src/batchproof.cpp:158-195) with the requests of lines 177-178. -/
def unserializeUndoA (big : Bool) (old : UndoBatch Hash32) (bytes : List Byte) : Claim (Bool × UndoBatch Hash32) :=
  if bytes.length < 8 then of (.ok (false, old))
  else do
    let numAdds := (Codec.readBE32 big (← of (memRead bytes 0 4))).toNat
    let off ← of (addInt 0 4)
    let numTargets := (Codec.readBE32 big (← of (memRead bytes off 4))).toNat
    let off ← of (addInt off 4)
    if bytes.length ≠ (4 + 4 + 4 * numTargets + 32 * numTargets) % 2 ^ 32 then
      return (false, { old with numAdds := numAdds })
    else
      reserve numTargets 8
      reserve numTargets 32
      let (ts, off) ← of (readPositions big bytes numTargets off)
      let (hs, off) ← of (readHashes bytes numTargets off)
      of (cassert (off = bytes.length))
      return (true, { numAdds := numAdds, positions := ts, hashes := hs })

end Batch

/-- Number of objects created by `MakeNodePtr` (include/accumulator.h:126-134). -/
structure Made where
  /-- `InternalNode` objects, that is nodes of the pollard (src/pollard.cpp:384, 390) -/
  internal : Nat := 0
  /-- `Pollard::Node` objects (src/pollard.cpp:394, 400) -/
  nodes : Nat := 0
  deriving DecidableEq, Repr

namespace Pol
variable {H : Type} [DecidableEq H] [HashOps H]

/-- `Pollard::Verify` (src/pollard.cpp:640-716) with the number of objects created. The heap of the model has an entry for each
`InternalNode` ever created. The objects of the roots exist before, all others that `CreateProofTree` works on have a parent and are
created by it; `VerifyProofTree` creates none. -/
def verifyA (s : Pollard H) (proof : BatchProof H) (hashes : List H) : Res ((Bool × Pollard H) × Made) :=
  if hashes.length ≠ proof.targets.length then .ok ((false, s), {})
  else do
    if !(← checkSanity proof s.numLeaves) then return ((false, s), {})
    else if proof.targets.length = 0 then return ((true, s), {})
    else
      let (createOk, c, tree) ← createProofTree s proof
      let made : Made := { internal := c.heap.length - s.ext.length, nodes := c.arena.countP fun v => v.parent.isSome }
      let (ok, t) ← if createOk then
          verifyProofTree s.numLeaves { heap := c.heap, arena := c.arena, targets := hashes } tree
        else pure (false, { heap := c.heap, arena := c.arena, targets := hashes })
      let s' := { s with roots := c.roots }
      if !ok then
        let heap ← recover t.arena c.recovery t.heap
        return ((false, { s' with ext := heap }), made)
      else
        let m ← rememberTargets hashes proof.sorted s.posmap
        return ((true, { s' with ext := t.heap, posmap := m }), made)

end Pol
end Utreexo
