import Verif.Model.File
import Verif.Model.Pollard

/-!
# Model of the benchmarks (src/bench/ram_forest.cpp, src/bench/pollard.cpp, src/bench/util/leaves.h)

A benchmark prepares some objects and then calls a function `m` times, where `m` is chosen by nanobench. The model returns the
results of these calls, most of which the code ignores. `N` is the value of `-asymptote` or 0, which is a `double` in the code
and a whole number here. The numbers returned by `rand()` are a parameter: the function `rnd` of the number of earlier calls.
The measuring of time, the choice of the benchmarks to be run and the parsing of the arguments are not modelled.
-/

namespace Utreexo
namespace Bench

/-- `SetHash` on an array of zeros (src/bench/util/leaves.h:11-18) for `num ≥ 0`. -/
def setHash (num : Nat) : Hash32 :=
  ⟨BitVec.ofNat 8 num :: BitVec.ofNat 8 (num >>> 8) :: BitVec.ofNat 8 (num >>> 16) :: BitVec.ofNat 8 (num >>> 24) :: 255 ::
    List.replicate 27 0, rfl⟩

/-- `CreateTestLeaves` (src/bench/util/leaves.h:20-32). -/
def testLeaves : Nat → Nat → List (Leaf Hash32)
  | 0, _ => []
  | count + 1, offset => (setHash offset, false) :: testLeaves count (offset + 1)

/-- `random_unique` (src/bench/util/leaves.h:35-47) on the elements of `v` from `b` on; `rand() % 0` is undefined. -/
def randomUnique {α : Type} (rnd : Nat → Nat) : Nat → Nat → List α → Res (List α)
  | 0, _, v => .ok v
  | num + 1, b, v => do
    if v.length - b = 0 then throw .ub
    let r := b + rnd b % (v.length - b)
    let x ← vecGet v b
    let y ← vecGet v r
    let v ← vecSet v b y
    let v ← vecSet v r x
    randomUnique rnd num (b + 1) v

/-- The loop that takes the first hashes (src/bench/ram_forest.cpp:79-81, 104-106, 131-133, src/bench/pollard.cpp:44-46). -/
def firstHashes (v : List (Leaf Hash32)) : Nat → Nat → Res (List Hash32)
  | 0, _ => .ok []
  | k + 1, i => do
    let x ← vecGet v i
    let rest ← firstHashes v k (i + 1)
    return x.1 :: rest

/-- `bench.complexityN() > 1 ? static_cast<int>(bench.complexityN()) : dflt`, a conversion of a number that does not fit is undefined. -/
def size (N dflt : Nat) : Res Nat := if N > 1 then (if N < 2147483648 then .ok N else .error .ub) else .ok dflt

/-- The multiplication `2 * k` of an `int`. -/
def twice (k : Nat) : Res Nat := if k * 2 < 2147483648 then .ok (k * 2) else .error .ub

/-- `bench.run`: the body is called `m` times; the results of the calls and the last state of the captured objects. -/
def runs {σ α : Type} (body : σ → Res (α × σ)) : Nat → σ → Res (List α × σ)
  | 0, s => .ok ([], s)
  | m + 1, s => do
    let (a, s) ← body s
    let (as, s) ← runs body m s
    return (a :: as, s)

variable [HashOps Hash32]

/-- `AddElements`, `AddElementsForest` and `AddElementsWithModifyForest` (src/bench/ram_forest.cpp:9-41). -/
def addForest (withModify : Bool) (N m : Nat) : Res (List (Bool × RamForest Hash32)) := do
  let n ← size N 64
  let leaves := testLeaves n 0
  let (rs, _) ← runs (fun _ => do
    if withModify then
      let (ok, _, full) ← Ram.modify (Ram.mk 0) leaves []
      return ((ok, full), ())
    else
      let full ← Ram.add (Ram.mk 0) leaves
      return ((true, full), ())) m ()
  return rs

/-- The body of `RestoreFromDiskForest` (src/bench/ram_forest.cpp:57-60): constructor, `assert`, destructor. -/
def restoreBody (big : Bool) (n : Nat) (file : List Byte) : Res (RamForest Hash32 × List Byte) := do
  let full ← File.restore big file
  cassert (full.numLeaves == n)
  let file ← File.commit big full file
  return (full, file)

/-- `RestoreFromDiskForest` (src/bench/ram_forest.cpp:44-61). The file does not exist after `std::remove`. -/
def restoreForest (big : Bool) (N m : Nat) : Res (List (RamForest Hash32)) := do
  let n ← size N 64
  let leaves := testLeaves n 0
  let (full, file) ← File.create big
  let (_, _, full) ← Ram.modify full leaves []
  let file ← File.commit big full file
  let (rs, _) ← runs (restoreBody big n) m file
  return rs

/-- `ProveElementsForest` (src/bench/ram_forest.cpp:64-87): the chosen hashes and the results of `Prove`. -/
def proveForest (rnd : Nat → Nat) (N m : Nat) : Res (List Hash32 × List (Option (BatchProof Hash32))) := do
  let k ← size N 32
  let n ← twice k
  let leaves := testLeaves n 0
  let (_, _, full) ← Ram.modify (Ram.mk 0) leaves []
  let leaves ← randomUnique rnd k 0 leaves
  let hashes ← firstHashes leaves k 0
  let (rs, _) ← runs (fun _ => do return (← Acc.prove Ram.vt full hashes, ())) m ()
  return (hashes, rs)

/-- What a `BatchProof` holds after `Prove`: on failure the proof as it was, here a new one. -/
def proofOf (r : Option (BatchProof Hash32)) : BatchProof Hash32 := r.getD (BatchProof.mk' [] [])

/-- `VerifyElementsForest` (src/bench/ram_forest.cpp:90-113). -/
def verifyForest (rnd : Nat → Nat) (N m : Nat) : Res (List Hash32 × List Bool) := do
  let k ← size N 32
  let n ← twice k
  let leaves := testLeaves n 0
  let (_, _, full) ← Ram.modify (Ram.mk 0) leaves []
  let leaves ← randomUnique rnd k 0 leaves
  let hashes ← firstHashes leaves k 0
  let proof := proofOf (← Acc.prove Ram.vt full hashes)
  let (rs, _) ← runs (fun _ => do return (Ram.verify full proof hashes, ())) m ()
  return (hashes, rs)

/-- `RemoveElementsForest` (src/bench/ram_forest.cpp:117-151). -/
def removeForest (rnd : Nat → Nat) (N m : Nat) : Res (List Hash32 × List (Bool × RamForest Hash32)) := do
  let k ← size N 32
  let n ← twice k
  let leaves := testLeaves n 0
  let shuffled ← randomUnique rnd k 0 leaves
  let hashes ← firstHashes shuffled k 0
  let full ← Ram.add (Ram.mk 0) leaves
  let proof := proofOf (← Acc.prove Ram.vt full hashes)
  let (rs, _) ← runs (fun _ => do
    let full ← Ram.add (Ram.mk 0) leaves
    let (ok, _, full) ← Ram.modify full [] proof.sorted
    return ((ok, full), ())) m ()
  return (hashes, rs)

/-- `AddElementsPollard` (src/bench/pollard.cpp:10-22). -/
def addPollard (N m : Nat) : Res (List (Bool × Pollard Hash32)) := do
  let n ← size N 64
  let leaves := testLeaves n 0
  let (rs, _) ← runs (fun _ => do
    let (ok, pruned) ← Pol.modify (Pol.mk 0) leaves []
    return ((ok, pruned), ())) m ()
  return rs

/-- `VerifyElementsPollard` (src/bench/pollard.cpp:26-53): the chosen hashes, the answers of `Verify` and the pollard in the end. -/
def verifyPollard (rnd : Nat → Nat) (N m : Nat) : Res (List Hash32 × List Bool × Pollard Hash32) := do
  let k ← size N 32
  let n ← twice k
  let leaves := testLeaves n 0
  let (_, _, full) ← Ram.modify (Ram.mk 0) leaves []
  let (_, pruned) ← Pol.modify (Pol.mk 0) leaves []
  let leaves ← randomUnique rnd k 0 leaves
  let hashes ← firstHashes leaves k 0
  let proof := proofOf (← Acc.prove Ram.vt full hashes)
  let (rs, pruned) ← runs (fun pruned => Pol.verify pruned proof hashes) m pruned
  return (hashes, rs, pruned)

/-- `RestorePollard` (src/bench/pollard.cpp:56-76). -/
def restorePollard (N m : Nat) : Res (List Hash32 × List (Pollard Hash32)) := do
  let n ← size N 64
  let leaves := testLeaves n 0
  let (_, pruned) ← Pol.modify (Pol.mk 0) leaves []
  let roots ← Pol.roots pruned
  let (rs, _) ← runs (fun _ => do return (← Pol.fromRoots roots n, ())) m ()
  return (roots, rs)

end Bench
end Utreexo
