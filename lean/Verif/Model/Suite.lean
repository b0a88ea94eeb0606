import Verif.Model.File
import Verif.Model.Object
import Verif.Model.Tests
import Verif.Model.Fuzz

/-!
# Model of the other tests of the accumulators (src/test/accumulator_tests.cpp) and of the forest state (src/test/state_tests.cpp)

Each test is a function that returns the results of its checks in the order of execution; a failed `BOOST_CHECK` lets the test go
on. The numbers of leaves and the leaves chosen are parameters, so that the test in the repository is the function at the values
given in its comment. Calls whose result the test ignores are not among the checks. The parameter `big` is the endianness of the host.
-/

namespace Utreexo
namespace Suite

/-- `leaves[i].second = true` for all `i` in a list (e.g. src/test/accumulator_tests.cpp:348): out of range it is undefined. -/
def rememberAt (leaves : List (Leaf Hash32)) : List Nat → Res (List (Leaf Hash32))
  | [] => .ok leaves
  | i :: is => do
    let x ← vecGet leaves i
    rememberAt (leaves.set i (x.1, true)) is

/-- `{leaves[i].first, leaves[j].first, ...}` (e.g. src/test/accumulator_tests.cpp:118). -/
def hashesAt (leaves : List (Leaf Hash32)) : List Nat → Res (List Hash32)
  | [] => .ok []
  | i :: is => do
    let x ← vecGet leaves i
    let xs ← hashesAt leaves is
    return x.1 :: xs

variable [HashOps Hash32]

/-- A forest and a pollard with `n` test leaves, of which the pollard remembers those in the list: the results of the two `Modify`
with the leaves and the objects (e.g. src/test/accumulator_tests.cpp:92-101). -/
def setup (n : Nat) (rem : List Nat) : Res (List (Leaf Hash32) × Bool × Bool × RamForest Hash32 × Pollard Hash32) := do
  let leaves ← Tests.leaves n 0
  let leaves ← rememberAt leaves rem
  let (b1, _, full) ← Ram.modify (Ram.mk 0) leaves []
  let (b2, pruned) ← Pol.modify (Pol.mk 0) leaves []
  return (leaves, b1, b2, full, pruned)

/-- `simple` (src/test/accumulator_tests.cpp:90-152) for 64 leaves of which 0, 2, 3 and 9 are deleted. The checks of the number of
roots and the comparisons with constants are left out; the function returns the roots before and after the deletion. -/
def simple (big : Bool) (n : Nat) (D : List Nat) : Res (List Bool × List Hash32 × List Hash32) := do
  let (leaves, b1, b2, full, pruned) ← setup n []
  let p1 ← Pol.roots pruned
  let f1 ← Ram.roots full
  let hashes ← hashesAt leaves D
  let r ← Acc.prove Ram.vt full hashes
  let proof := Bench.proofOf r
  let (b3, pruned) ← Pol.verify pruned proof hashes
  let (b4, u, full) ← Ram.modify full [] proof.sorted
  let undo := u.getD { numAdds := 0, positions := [], hashes := [] }
  let (b5, pruned) ← Pol.modify pruned [] proof.sorted
  let p2 ← Pol.roots pruned
  let f2 ← Ram.roots full
  let bytes ← Object.UndoObj.serialize big (Object.UndoObj.of undo) []
  let (b6, copy) ← Object.UndoObj.unserialize big Object.UndoObj.new bytes
  let b7 ← Object.UndoObj.eq copy (Object.UndoObj.of undo)
  let (b8, full) ← Ram.undo full undo
  let f3 ← Ram.roots full
  return ([b2, b1, p1 == f1, r.isSome, b3, b4, b5, p2 == f2, b6, b7, b8, f3 == f1], p1, p2)

/-- `ramforest_disk` (src/test/accumulator_tests.cpp:154-175) for 32 leaves and leaf 0. The file does not exist at the beginning; the
forest's destructor commits it. -/
def ramforestDisk (big : Bool) (n t : Nat) : Res (List Bool) := do
  let (full, file) ← File.create big
  let leaves ← Tests.leaves n 0
  let (b1, _, full) ← Ram.modify full leaves []
  let (b2, pollard) ← Pol.modify (Pol.mk 0) leaves []
  let hashes ← hashesAt leaves [t]
  let r ← Acc.prove Ram.vt full hashes
  let (b3, _) ← Pol.verify pollard (Bench.proofOf r) hashes
  let file ← File.commit big full file
  let full ← File.restore big file
  let r' ← Acc.prove Ram.vt full hashes
  return [b1, b2, r.isSome, b3, r'.isSome, Batch.proofEq (Bench.proofOf r') (Bench.proofOf r)]

/-- `batchproof_serialization` (src/test/accumulator_tests.cpp:178-195) for 32 leaves and leaves 0 and 1. -/
def batchproofSerialization (big : Bool) (n : Nat) (D : List Nat) : Res (List Bool) := do
  let leaves ← Tests.leaves n 0
  let (_, _, full) ← Ram.modify (Ram.mk 0) leaves []
  let hashes ← hashesAt leaves D
  let r ← Acc.prove Ram.vt full hashes
  let bytes ← Batch.serialize big (Bench.proofOf r) []
  let (b, proof2) ← Batch.unserialize big (BatchProof.mk' [] []) bytes
  return [r.isSome, b, Batch.proofEq (Bench.proofOf r) proof2]

/-- The loop of `singular_leaf_prove`. -/
def proveAll (full : RamForest Hash32) : List (Leaf Hash32) → Pollard Hash32 → Res (List Bool)
  | [], _ => .ok []
  | l :: ls, pruned => do
    let r ← Acc.prove Ram.vt full [l.1]
    let (b, pruned) ← Pol.verify pruned (Bench.proofOf r) [l.1]
    let pruned ← Pol.pruneAll pruned
    let cs ← proveAll full ls pruned
    return b :: cs

/-- `singular_leaf_prove` (src/test/accumulator_tests.cpp:197-218) for 8 leaves. -/
def singularLeafProve (n : Nat) : Res (List Bool) := do
  let (leaves, _, _, full, pruned) ← setup n []
  proveAll full leaves pruned

/-- `simple_modified_proof` (src/test/accumulator_tests.cpp:220-242) for 8 leaves and leaf 0: `back()` of an empty vector is
undefined. -/
def simpleModifiedProof (n t : Nat) : Res (List Bool) := do
  let (leaves, _, _, full, pruned) ← setup n []
  let hashes ← hashesAt leaves [t]
  let r ← Acc.prove Ram.vt full hashes
  let proof := Bench.proofOf r
  let modified ← vecSet proof.hashes (proof.hashes.length - 1) Fuzz.zeroHash
  let (b, _) ← Pol.verify pruned (BatchProof.mk' proof.sorted modified) hashes
  return [b == false]

/-- Verifying with some of the proof's hashes (src/test/accumulator_tests.cpp:263-273). -/
def verifySome (proof : BatchProof Hash32) (hashes : List Hash32) : List (List Nat) → Pollard Hash32 → Res (List Bool)
  | [], _ => .ok []
  | is :: rest, pruned => do
    let hs ← is.mapM (vecGet proof.hashes)
    let (b, pruned) ← Pol.verify pruned (BatchProof.mk' proof.sorted hs) hashes
    let cs ← verifySome proof hashes rest pruned
    return b :: cs

/-- `simple_cached_proof` (src/test/accumulator_tests.cpp:244-274) for 8 leaves, leaf 0 and the subsets 0, 1, 2, 01, 02, 12, 012 and
the empty one. The seventh call is with the proof itself, whose targets are sorted. -/
def simpleCachedProof (n t : Nat) (subsets : List (List Nat)) : Res (List Bool) := do
  let (leaves, _, _, full, pruned) ← setup n [t]
  let hashes ← hashesAt leaves [t]
  let r ← Acc.prove Ram.vt full hashes
  verifySome (Bench.proofOf r) hashes subsets pruned

/-- `simple_batch_proof` (src/test/accumulator_tests.cpp:276-293) for 15 leaves and leaves 0, 7, 8 and 14. -/
def simpleBatchProof (n : Nat) (D : List Nat) : Res (List Bool) := do
  let (leaves, _, _, full, pruned) ← setup n []
  let hashes ← hashesAt leaves D
  let r ← Acc.prove Ram.vt full hashes
  let (b, _) ← Pol.verify pruned (Bench.proofOf r) hashes
  return [b]

/-- `simple_batchproof_verify_and_delete` (src/test/accumulator_tests.cpp:295-337) for 15 leaves, the order 7, 8, 14, 0 and the sorted
list 0, 7, 8, 14. -/
def verifyAndDelete (n : Nat) (order D : List Nat) : Res (List Bool) := do
  let (leaves, _, _, full, pruned) ← setup n []
  let f0 ← Ram.roots full
  let p0 ← Pol.roots pruned
  let mixed ← hashesAt leaves order
  let hashes ← hashesAt leaves D
  let r ← Acc.prove Ram.vt full mixed
  let proof := Bench.proofOf r
  let (b1, pruned) ← Pol.verify pruned proof mixed
  let (b2, pruned) ← Pol.verify pruned proof hashes
  let (b3, _, full) ← Ram.modify full [] proof.targets
  let (b4, pruned) ← Pol.modify pruned [] proof.targets
  let (b5, _, full) ← Ram.modify full [] proof.sorted
  let (b6, pruned) ← Pol.modify pruned [] proof.sorted
  let f1 ← Ram.roots full
  let p1 ← Pol.roots pruned
  return [f0 == p0, r.isSome, !b1, b2, !b3, !b4, b5, b6, f1 == p1, p1 != p0]

/-- One of the two halves of `hash_to_known_invalid_proof` (src/test/accumulator_tests.cpp:354-374). -/
def invalidThenValid (full : RamForest Hash32) (leaves : List (Leaf Hash32)) (D : List Nat) (cached : Nat) (pruned : Pollard Hash32) :
    Res (List Bool × Pollard Hash32) := do
  let hashes ← hashesAt leaves D
  let r ← Acc.prove Ram.vt full hashes
  let proof := Bench.proofOf r
  let (b1, pruned) ← Pol.verify pruned (BatchProof.mk' proof.sorted [⟨List.replicate 32 0xff, rfl⟩]) hashes
  let (b2, pruned) ← Pol.verify pruned proof hashes
  return ([r.isSome, !b1, b2, Pol.numCachedLeaves pruned == cached], pruned)

/-- `hash_to_known_invalid_proof` (src/test/accumulator_tests.cpp:339-374) for 15 leaves of which 0 is remembered, first with leaves 4
to 7, then with leaf 1. -/
def hashToKnown (n : Nat) (rem D D' : List Nat) : Res (List Bool) := do
  let (leaves, _, _, full, pruned) ← setup n rem
  let b := Pol.numCachedLeaves pruned == rem.length
  let (c1, pruned) ← invalidThenValid full leaves D (rem.length + D.length) pruned
  let (c2, _) ← invalidThenValid full leaves D' (rem.length + D.length + D'.length) pruned
  return b :: c1 ++ c2

/-- `pollard_restore` (src/test/accumulator_tests.cpp:485-506) for 15 leaves and leaves 4 to 7. -/
def pollardRestore (n : Nat) (D : List Nat) : Res (List Bool) := do
  let (leaves, _, _, full, pruned) ← setup n []
  let hashes ← hashesAt leaves D
  let r ← Acc.prove Ram.vt full hashes
  let (b1, pruned) ← Pol.verify pruned (Bench.proofOf r) hashes
  let roots ← Pol.roots pruned
  let restored ← Pol.fromRoots roots n
  let (b2, _) ← Pol.verify restored (Bench.proofOf r) hashes
  return [r.isSome, b1, b2]

/-- `pollard_remember` (src/test/accumulator_tests.cpp:508-543) for 8 leaves of which 1, 2 and 3 are remembered. Leaves 0 and 2 are
proved with the hash of leaf 1 only; then they are deleted, and then leaf 3. -/
def pollardRemember (n : Nat) (rem D given : List Nat) (t : Nat) : Res (List Bool) := do
  let (leaves, b1, b2, full, pruned) ← setup n rem
  let hashes ← hashesAt leaves D
  let r ← Acc.prove Ram.vt full hashes
  let proof := Bench.proofOf r
  let gs ← hashesAt leaves given
  let (b3, pruned) ← Pol.verify pruned (BatchProof.mk' D gs) hashes
  let (b4, pruned) ← Pol.verify pruned proof hashes
  let (b5, pruned) ← Pol.modify pruned [] proof.sorted
  let (b6, _, full) ← Ram.modify full [] proof.sorted
  let hashes' ← hashesAt leaves [t]
  let r' ← Acc.prove Ram.vt full hashes'
  let proof' := Bench.proofOf r'
  let (b7, pruned) ← Pol.modify pruned [] proof'.sorted
  let (b8, _, full) ← Ram.modify full [] proof'.sorted
  let f ← Ram.roots full
  let p ← Pol.roots pruned
  return [b1, b2, r.isSome, b3, b4, b5, b6, r'.isSome, b7, b8, f == p]

/-- `simple_pollard_prove` (src/test/accumulator_tests.cpp:545-575) for 8 leaves and target 0. -/
def simplePollardProve (n t : Nat) : Res (List Bool) := do
  let (leaves, b1, b2, full, pruned) ← setup n [t]
  let hashes ← hashesAt leaves [t]
  let r ← Acc.prove Ram.vt full hashes
  let r' ← Acc.prove Pol.vt pruned hashes
  let leaves' ← Tests.leaves n 0
  let (_, other) ← Pol.modify (Pol.mk 0) leaves' []
  let (b3, _) ← Pol.verify other (Bench.proofOf r') hashes
  return [b1, b2, r.isSome, r'.isSome, Batch.proofEq (Bench.proofOf r) (Bench.proofOf r'), b3]

/-- `ramforest_undo` (src/test/accumulator_tests.cpp:577-621) for 8 leaves, then 8 more; leaves 5, 6 and 7 are deleted first, then
leaves 2 and 4. -/
def ramforestUndo (n m : Nat) (D D' : List Nat) : Res (List Bool) := do
  let full : RamForest Hash32 := Ram.mk 0
  let prev : RamForest Hash32 := Ram.mk 0
  let leaves ← Tests.leaves n 0
  let more ← Tests.leaves m n
  let (b1, u, full) ← Ram.modify full leaves []
  let (b2, full) ← Ram.undo full (u.getD { numAdds := 0, positions := [], hashes := [] })
  let b3 ← Ram.equal full prev
  let (b4, _, full) ← Ram.modify full leaves []
  let (b5, _, prev) ← Ram.modify prev leaves []
  let hashes ← hashesAt leaves D
  let r ← Acc.prove Ram.vt full hashes
  let proof := Bench.proofOf r
  let (b6, u, full) ← Ram.modify full [] proof.sorted
  let b7 ← Ram.equal full prev
  let (b8, full) ← Ram.undo full (u.getD { numAdds := 0, positions := [], hashes := [] })
  let b9 ← Ram.equal full prev
  let (b10, _, full) ← Ram.modify full [] proof.sorted
  let (b11, _, prev) ← Ram.modify prev [] proof.sorted
  let hashes' ← hashesAt leaves D'
  let r' ← Acc.prove Ram.vt full hashes'
  let (b12, u, full) ← Ram.modify full more (Bench.proofOf r').sorted
  let b13 ← Ram.equal full prev
  let (b14, full) ← Ram.undo full (u.getD { numAdds := 0, positions := [], hashes := [] })
  let b15 ← Ram.equal full prev
  return [b1, b2, b3, b4, b5, r.isSome, b6, !b7, b8, b9, b10, b11, r'.isSome, b12, !b13, b14, b15]

/-- `simple_posmap_updates` (src/test/accumulator_tests.cpp:623-648) for 16 leaves of which 0 and 7 are remembered, with 10 nodes;
leaf 0 is proved and deleted. -/
def simplePosmapUpdates (n : Nat) (rem : List Nat) (nodes t : Nat) : Res (List Bool) := do
  let (leaves, b1, b2, full, pruned) ← setup n rem
  let b3 ← Acc.comparePositionMap pruned full
  let hashes ← hashesAt leaves [t]
  let r ← Acc.prove Pol.vt pruned hashes
  let cached := Pol.numCachedLeaves pruned
  let count := Pol.countNodes pruned
  let (b4, pruned) ← Pol.verify pruned (Bench.proofOf r) hashes
  let (b5, pruned) ← Pol.modify pruned [] [t]
  let (b6, _, full) ← Ram.modify full [] [t]
  let b7 ← Acc.comparePositionMap pruned full
  return [b1, b2, count == nodes, b3, cached == rem.length, r.isSome, b4, b5, b6, b7]

/-- `add_memorable_and_remove` (src/test/accumulator_tests.cpp:650-668) for 8 leaves and leaf 0. -/
def addMemorableAndRemove (n t : Nat) : Res (List Bool) := do
  let (leaves, b1, b2, _, pruned) ← setup n [t]
  let hashes ← hashesAt leaves [t]
  let r ← Acc.prove Pol.vt pruned hashes
  let (b3, _) ← Pol.modify pruned [] [t]
  return [b1, b2, r.isSome, Pol.numCachedLeaves pruned == 1, b3]

end Suite
end Utreexo
