import Verif.Model.Bench

/-!
# Model of the test `simple_blockchain` (src/test/accumulator_tests.cpp:376-483)

The test is modelled as a function that returns the results of its checks in the order of execution; a failed `BOOST_CHECK` lets the
test go on. The number of blocks, the greatest number of additions and the random numbers are parameters: the function `gen` of the
number of earlier draws. A variable of type `int` is a natural number here; making a leaf with a number that does not fit an `int`
is undefined. The number of leaves is never greater than that of the leaves made.
-/

namespace Utreexo
namespace Tests

/-- `CreateTestLeaves` (src/test/accumulator_tests.cpp:23-30), the same as in the benchmarks. -/
def leaves (count offset : Nat) : Res (List (Leaf Hash32)) :=
  if offset + count < 2147483648 then .ok (Bench.testLeaves count offset) else .error .ub

/-- A number of a `std::uniform_int_distribution<int>` (src/test/accumulator_tests.cpp:389, 414): any number from `lo` to `hi`. -/
def draw (gen : Nat → Nat) (drawn lo hi : Nat) : Nat := lo + gen drawn % (hi - lo + 1)

/-- The objects and variables of the test between two blocks: `drawn` counts the random numbers, `undos` is the vector with its
last element first. -/
structure Chain where
  full : RamForest Hash32
  pruned : Pollard Hash32
  unique : Nat
  drawn : Nat
  undos : List (UndoBatch Hash32 × List Hash32)

variable [HashOps Hash32]

/-- The loop that selects the leaves to be deleted (src/test/accumulator_tests.cpp:410-418); `min` grows each time, so it ends within
`max` steps. -/
def select (gen : Nat → Nat) (full : RamForest Hash32) (max : Nat) : Nat → Nat → Nat → Res (List Hash32 × Nat)
  | 0, _, _ => .error .ub
  | fuel + 1, drawn, min =>
    if max > 0 ∧ min ≠ max then do
      let i := draw gen drawn min max
      let h ← Ram.getLeaf full i
      let (hs, drawn) ← select gen full max fuel (drawn + 1) (if i + 1 > max then max else i + 1)
      return (h :: hs, drawn)
    else .ok ([], drawn)

/-- The calls on the forest (src/test/accumulator_tests.cpp:420-437): the checks, the proof, the undo batch and the roots before. -/
def forestPart (full : RamForest Hash32) (adds : List (Leaf Hash32)) (hashes : List Hash32) :
    Res (List Bool × BatchProof Hash32 × UndoBatch Hash32 × List Hash32 × RamForest Hash32) := do
  let roots ← Ram.roots full
  let r ← Acc.prove Ram.vt full hashes
  let proof := Bench.proofOf r
  let (b1, u, full) ← Ram.modify full adds proof.sorted
  let undo := u.getD { numAdds := 0, positions := [], hashes := [] }
  let (b2, full) ← Ram.undo full undo
  let roots' ← Ram.roots full
  let (b3, _, full) ← Ram.modify full adds proof.sorted
  return ([r.isSome, b1, b2, roots' == roots, b3], proof, undo, roots, full)

/-- The loop over the cached leaves (src/test/accumulator_tests.cpp:449-454). -/
def proveEach (pruned : Pollard Hash32) : List Hash32 → Pollard Hash32 → Res (List Bool)
  | [], _ => .ok []
  | h :: hs, foo => do
    let r ← Acc.prove Pol.vt pruned [h]
    let (b, foo) ← Pol.verify foo (Bench.proofOf r) [h]
    let foo ← Pol.pruneAll foo
    let cs ← proveEach pruned hs foo
    return r.isSome :: b :: cs

/-- The calls on the pollard up to the modification (src/test/accumulator_tests.cpp:439-458). -/
def pollardPart (pruned : Pollard Hash32) (adds : List (Leaf Hash32)) (proof : BatchProof Hash32) (hashes : List Hash32) :
    Res (List Bool × Pollard Hash32) := do
  let (b1, pruned) ← Pol.verify pruned proof hashes
  let b2 := Pol.numCachedLeaves pruned == hashes.length
  let roots ← Pol.roots pruned
  let foo ← Pol.fromRoots roots pruned.numLeaves
  let cs ← proveEach pruned hashes foo
  let (b3, pruned) ← Pol.modify pruned adds proof.sorted
  return (b1 :: b2 :: cs ++ [b3, Pol.numCachedLeaves pruned == 0], pruned)

/-- A block up to and including the modification of the pollard (src/test/accumulator_tests.cpp:404-458): the checks, the proof and
the hashes of the deleted leaves. -/
def connect (gen : Nat → Nat) (maxAdds : Nat) (s : Chain) : Res (List Bool × BatchProof Hash32 × List Hash32 × Chain) := do
  let adds ← leaves (draw gen s.drawn 1 maxAdds) s.unique
  let (hashes, drawn) ← select gen s.full (s.full.numLeaves - 1) (s.full.numLeaves + 1) (s.drawn + 1) 0
  let (cs, proof, undo, roots, full) ← forestPart s.full adds hashes
  let (cs', pruned) ← pollardPart s.pruned adds proof hashes
  return (cs ++ cs', proof, hashes,
    { full, pruned, unique := s.unique + adds.length, drawn, undos := (undo, roots) :: s.undos })

/-- The rest of the block (src/test/accumulator_tests.cpp:460-466): the old proof is verified again, the roots are compared. -/
def again (proof : BatchProof Hash32) (hashes : List Hash32) (s : Chain) : Res (List Bool × Chain) := do
  let (cs, pruned) ← if proof.targets.length > 0 then do
      let (b, pruned) ← Pol.verify s.pruned proof hashes
      pure ([!b], pruned)
    else pure ([], s.pruned)
  let r1 ← Pol.roots pruned
  let r2 ← Ram.roots s.full
  return (cs ++ [r2 == r1], { s with pruned })

/-- The loop over the blocks (src/test/accumulator_tests.cpp:403-467). -/
def blocks (gen : Nat → Nat) (maxAdds : Nat) : Nat → Chain → Res (List Bool × Chain)
  | 0, s => .ok ([], s)
  | k + 1, s => do
    let (c1, proof, hashes, s) ← connect gen maxAdds s
    let (c2, s) ← again proof hashes s
    let (c3, s) ← blocks gen maxAdds k s
    return (c1 ++ c2 ++ c3, s)

/-- The rollback of all blocks (src/test/accumulator_tests.cpp:472-482): the checks and the number of batches undone. -/
def rollback : List (UndoBatch Hash32 × List Hash32) → RamForest Hash32 → Res (List Bool × Nat)
  | [], _ => .ok ([], 0)
  | (u, roots) :: us, full => do
    let (b, full) ← Ram.undo full u
    let roots' ← Ram.roots full
    let (cs, n) ← rollback us full
    return (b :: (roots' == roots) :: cs, n + 1)

/-- The genesis leaves (src/test/accumulator_tests.cpp:378-398). -/
def genesis : Res Chain := do
  let adds ← leaves 8 0
  let (_, _, full) ← Ram.modify (Ram.mk 0) adds []
  let (_, pruned) ← Pol.modify (Pol.mk 0) adds []
  return { full, pruned, unique := adds.length, drawn := 0, undos := [] }

/-- `simple_blockchain` (src/test/accumulator_tests.cpp:376-483), where the number of blocks is 1000 and the greatest number of
additions is 128. -/
def simpleBlockchain (gen : Nat → Nat) (numBlocks maxAdds : Nat) : Res (List Bool) := do
  let s ← genesis
  let (cs, s) ← blocks gen maxAdds numBlocks s
  let (cs', n) ← rollback s.undos s.full
  return cs ++ cs' ++ [n == numBlocks]

end Tests
end Utreexo
