import Verif.Props.Suite
import Verif.Model.Print

/-!
# The tests of the repository at their own values

Nothing here is a proof of a property. The model's functions are evaluated at the values of src/test/accumulator_tests.cpp and
src/test/state_tests.cpp, with the constants of those files, to show that the model agrees with the results the project expects of its
code. The commands `#guard` run the functions; the examples on positions are checked by the kernel.
-/

namespace Utreexo
namespace Suite

/-- All checks of a test succeed. -/
def passes : Res (List Bool) → Bool
  | .ok l => l.all id
  | .error _ => false

section
attribute [local instance] shaOps

def hexes (l : List Hash32) : List String := l.map fun h => String.ofList (Print.hexStr h.val)

-- src/test/accumulator_tests.cpp:90-152
#guard match simple false 64 [0, 2, 3, 9] with
  | .ok (l, before, after) => l.all id &&
      hexes before == ["6692c043bfd19c717a07a931833b1748cff69aa4349110948907ab125f744c25"] &&
      hexes after == ["b868b67e97610dc20fd4052d08c390cf8fc95eef3c7ee717aebc85a02e81cd68",
        "4a812f9dc3a1691f4b6de9ec07ecb2014a3c8839182592549a2d8508631cd908",
        "891899fa84a5c8659b007ce655b7cc5cf4b92493477db1095518cfc732024ef2",
        "aee875faf7276a9817d0db6195414118b1348697d2e2abd4b3fcee46c579833b"]
  | .error _ => false
-- src/test/accumulator_tests.cpp:154-293
#guard passes (ramforestDisk false 32 0)
#guard passes (batchproofSerialization false 32 [0, 1])
#guard passes (singularLeafProve 8)
#guard passes (simpleModifiedProof 8 0)
#guard passes (simpleCachedProof 8 0 [[0], [1], [2], [0, 1], [0, 2], [1, 2], [0, 1, 2], []])
#guard passes (simpleBatchProof 15 [0, 7, 8, 14])
-- src/test/accumulator_tests.cpp:295-374
#guard passes (verifyAndDelete 15 [7, 8, 14, 0] [0, 7, 8, 14])
#guard passes (hashToKnown 15 [0] [4, 5, 6, 7] [1])
-- src/test/accumulator_tests.cpp:485-668
#guard passes (pollardRestore 15 [4, 5, 6, 7])
#guard passes (pollardRemember 8 [1, 2, 3] [0, 2] [1] 3)
#guard passes (simplePollardProve 8 0)
#guard passes (ramforestUndo 8 8 [5, 6, 7] [2, 4])
#guard passes (simplePosmapUpdates 16 [0, 7] 10 0)
#guard passes (addMemorableAndRemove 8 0)

end

/-- `positions` (src/test/state_tests.cpp:16-57). -/
example : St.leftChild 15 28 = .ok 24 ∧ St.sibling 24 = 25 ∧ St.rightSibling 24 = 25 ∧ St.rightSibling 25 = 25 ∧
    St.parent 15 24 = .ok 28 ∧ (∀ pos < 8, St.ancestor 15 pos 3 = .ok 28) ∧ St.leftDescendant 15 28 3 = .ok 0 ∧
    St.leftDescendant 15 26 2 = .ok 8 ∧ St.leftDescendant 15 25 2 = .ok 4 ∧ St.cousin 4 = 6 ∧ St.cousin 5 = 7 := by decide +kernel

/-- `proof` (src/test/state_tests.cpp:59-92). -/
example : St.proofPositions 15 [0] = .ok ([1, 17, 25], [0, 16, 24, 28]) ∧
    St.proofPositions 15 [0, 2, 3, 6, 8, 10, 11] =
      .ok ([1, 7, 9, 18], [0, 2, 3, 6, 8, 10, 11, 16, 17, 19, 20, 21, 24, 25, 26, 28]) := by decide +kernel

end Suite
end Utreexo
