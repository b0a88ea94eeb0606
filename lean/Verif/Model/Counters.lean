import Verif.Model.Pollard
import Verif.Model.RamForest

/-!
# The `int` sizes and counters (src/state.cpp:176, src/accumulator.cpp:261, src/pollard.cpp:704, src/ram_forest.cpp:368, 398)

`Model/State.lean`, `Model/Accumulator.lean`, `Model/RamForest.lean` and `Model/Pollard.lean` count the elements of vectors
without a bound. Here the functions that count with an `int` are written again with `int`s of 32 bits: storing a size in an
`int` keeps the lower 32 bits, incrementing a counter of value `2^31 - 1` is undefined. The names carry an `I`; what does not
depend on a counter is shared with the main model.
-/

namespace Utreexo

/-- One more than the largest `int`. -/
def intBound : Nat := 2147483648

/-- The value of an `int` that is initialised with a number of elements: the lower 32 bits, in two's complement. -/
def toInt (k : Nat) : Int := ((k + intBound) % (2 * intBound) : Nat) - (intBound : Int)

/-- `i++` for an `int` counter of value `i`. -/
def incInt (i : Nat) : Res Nat := if i + 1 < intBound then .ok (i + 1) else .error .ub

namespace St

/-- The inner loop of `ProofPositions` with `int size = end - start` (src/state.cpp:175-237). In rows of fewer than four
targets the size is exact. -/
def proofRowI (n : Nat) : List Nat → Res (List Nat × List Nat)
  | [] => .ok ([], [])
  | a :: b :: c :: d :: rest =>
    let size := toInt (rest.length + 4)
    if size > 3 ∧ cousin (rightSibling a) = rightSibling d then do
      let pa ← parent n a
      let pd ← parent n d
      let (pf, nx) ← proofRowI n rest
      return (pf, pa :: pd :: nx)
    else if size > 2 ∧ cousin (rightSibling a) = rightSibling c then do
      let p := if rightSibling b = rightSibling a then sibling c else sibling a
      let pa ← parent n a
      let pc ← parent n c
      let (pf, nx) ← proofRowI n (d :: rest)
      return (p :: pf, pa :: pc :: nx)
    else if size > 1 ∧ rightSibling a = b then do
      let pa ← parent n a
      let (pf, nx) ← proofRowI n (c :: d :: rest)
      return (pf, pa :: nx)
    else if size > 1 ∧ cousin (rightSibling a) = rightSibling b then do
      let pa ← parent n a
      let pb ← parent n b
      let (pf, nx) ← proofRowI n (c :: d :: rest)
      return (sibling a :: sibling b :: pf, pa :: pb :: nx)
    else do
      let pa ← parent n a
      let (pf, nx) ← proofRowI n (b :: c :: d :: rest)
      return (sibling a :: pf, pa :: nx)
  | l => proofRow n l

/-- The outer loop of `ProofPositions` (src/state.cpp:166-243). -/
def proofRowsI (n : Nat) : Nat → Nat → List Nat → Res (List Nat × List Nat)
  | 0, _, _ => .ok ([], [])
  | k + 1, row, targets => do
    let ts ← dropRootTarget n row targets
    let (pf, nx) ← proofRowI n ts
    let (pf', comp') ← proofRowsI n k (row + 1) nx
    return (pf ++ pf', targets ++ comp')

/-- `ForestState::ProofPositions` (src/state.cpp:148-246). -/
def proofPositionsI (n : Nat) (targets : List Nat) : Res (List Nat × List Nat) :=
  proofRowsI n (numRows n + 1) 0 targets

end St

namespace Acc
variable {H N X : Type} [DecidableEq H] [HashOps H]

/-- Reading the proof hashes with `int i` (src/accumulator.cpp:261-266). -/
def readProofI (vt : VT H N X) (s : Acc H N X) : Nat → List Nat → Res (Option (List H))
  | _, [] => .ok (some [])
  | i, p :: ps => do
    match ← vt.read s p with
    | none => return none
    | some h => do
      let i' ← incInt i
      return (← readProofI vt s i' ps).map (h :: ·)

/-- `Accumulator::Prove` (src/accumulator.cpp:236-271). -/
def proveI (vt : VT H N X) (s : Acc H N X) (hashes : List H) : Res (Option (BatchProof H)) :=
  match lookupTargets s.posmap hashes with
  | none => .ok none
  | some targets => do
    let sorted := St.sortU64 targets
    if !(← St.checkTargetsSanity s.numLeaves sorted) then return none
    else
      let pp ← St.proofPositionsI s.numLeaves sorted
      match ← readProofI vt s 0 pp.1 with
      | none => return none
      | some ph => return some (BatchProof.mk' targets ph)

end Acc

namespace Ram
variable {H : Type} [DecidableEq H] [HashOps H]

/-- The loop of `BuildUndoBatch` with `int i` (src/ram_forest.cpp:368-372); `pos` is `m_num_leaves + i`. -/
def undoHashesI (s : RamForest H) (prev : Nat) : Nat → Nat → Nat → Res (Option (List H))
  | _, _, 0 => .ok (some [])
  | i, pos, k + 1 => do
    match s.ext with
    | [] => return none
    | row0 :: _ =>
      if pos ≥ row0.length then return none
      else
        let h ← readIn s prev pos
        let i' ← incInt i
        return (← undoHashesI s prev i' (pos + 1) k).map (h :: ·)

/-- `RamForest::BuildUndoBatch` (src/ram_forest.cpp:363-376). -/
def buildUndoBatchI (s : RamForest H) (numAdds : Nat) (targets : List Nat) : Res (Option (UndoBatch H)) := do
  let hs ← undoHashesI s (wrap64 (s.numLeaves + targets.length)) 0 s.numLeaves targets.length
  return hs.map (fun h => { numAdds := numAdds, positions := targets, hashes := h })

/-- `RamForest::Modify` (src/ram_forest.cpp:343-352). -/
def modifyI (s : RamForest H) (leaves : List (Leaf H)) (targets : List Nat) :
    Res (Bool × Option (UndoBatch H) × RamForest H) := do
  let (ok, s1) ← Acc.remove vt s targets
  if !ok then return (false, none, s1)
  else
    match ← buildUndoBatchI s1 leaves.length targets with
    | none => return (false, none, s1)
    | some undo =>
      let s2 ← add s1 leaves
      return (true, some undo, s2)

/-- Placing the deleted hashes with `int i` (src/ram_forest.cpp:398-410). -/
def undoPlaceI (n0 : Nat) : List H → Nat → List H → PosMap H → Res (List H × PosMap H × Bool)
  | [], _, row0, m => .ok (row0, m, true)
  | h :: hs, i, row0, m =>
    if wrap64 (n0 + i) ≥ row0.length then .ok (row0, m, false)
    else
      let row0' := row0.set (wrap64 (n0 + i)) h
      match PosMap.find m h with
      | some _ => .ok (row0', m, false)
      | none => do
        let i' ← incInt i
        undoPlaceI n0 hs i' row0' (PosMap.insert m h (wrap64 (n0 + i)))

/-- `RamForest::Undo` (src/ram_forest.cpp:378-482). -/
def undoI (s : RamForest H) (u : UndoBatch H) : Res (Bool × RamForest H) :=
  if s.ext.length = 0 then .ok (true, s)
  else do
    let prev := sub64 (wrap64 (s.numLeaves + u.positions.length)) u.numAdds
    let swaps ← St.undoTransform prev u.positions
    let start := sub64 s.numLeaves u.numAdds
    let (m1, ok1) ← undoErase s start (s.numLeaves - start) s.posmap
    if !ok1 then return (false, { s with posmap := m1 })
    else
      let n0 := sub64 s.numLeaves u.numAdds
      let row0 ← vecGet s.ext 0
      let row0 := vecResize row0 prev HashOps.zero
      let (row0', m2, ok2) ← undoPlaceI n0 u.hashes 0 row0 m1
      let s1 := { s with numLeaves := n0, posmap := m2, ext := s.ext.set 0 row0' }
      if !ok2 then return (false, s1)
      else
        let s2 := { s1 with numLeaves := prev }
        let s3 ← undoSwaps swaps.reverse s2
        let dirtSet := (List.range u.hashes.length).map (fun i => wrap64 (n0 + i))
          ++ swaps.reverse.flatMap swapDirt
        let first ← firstDirt prev (sortUniq dirtSet) []
        let dirt := first.map fun p => ({ hash := none, numLeaves := prev, pos := p } : RNode H)
        let s4 ← undoRehash (St.numRows prev) 1 dirt s3
        let s5 ← restoreRoots s4
        return (true, s5)

end Ram

namespace Pol
variable {H : Type} [DecidableEq H] [HashOps H]

/-- `Pollard::CreateProofTree` (src/pollard.cpp:407-541). -/
def createProofTreeI (s : Pollard H) (proof : BatchProof H) : Res (Bool × CPT H × List Nat) := do
  let n := s.numLeaves
  let (pp, cp) ← St.proofPositionsI n proof.sorted
  let c : CPT H := {
    heap := s.ext, roots := s.roots, arena := [], recovery := []
    hashes := proof.hashes.reverse, proofPos := pp.reverse, compPos := cp.reverse }
  match ← cptRows n (St.numRows n + 1) c [] with
  | .fail (c', _) => return (false, c', [])
  | .cont (c', tree) => return (c'.hashes.isEmpty, c', tree)

/-- Remembering the targets with `int i` (src/pollard.cpp:704-706). -/
def rememberTargetsI : Nat → List H → List Nat → PosMap H → Res (PosMap H)
  | _, [], _, m => .ok m
  | _, _ :: _, [], _ => .error .ub
  | i, h :: hs, p :: ps, m => do
    let i' ← incInt i
    rememberTargetsI i' hs ps (PosMap.insert m h p)

/-- `BatchProof::CheckSanity` (src/batchproof.cpp:95-106). -/
def checkSanityI (proof : BatchProof H) (n : Nat) : Res Bool := do
  if !(← St.checkTargetsSanity n proof.sorted) then return false
  else
    let pp ← St.proofPositionsI n proof.sorted
    return decide (pp.1.length ≥ proof.hashes.length)

/-- `Pollard::Verify` (src/pollard.cpp:640-716). -/
def verifyI (s : Pollard H) (proof : BatchProof H) (hashes : List H) : Res (Bool × Pollard H) :=
  if hashes.length ≠ proof.targets.length then .ok (false, s)
  else do
    if !(← checkSanityI proof s.numLeaves) then return (false, s)
    else if proof.targets.length = 0 then return (true, s)
    else
      let (createOk, c, tree) ← createProofTreeI s proof
      let (ok, t) ← if createOk then
          verifyProofTree s.numLeaves { heap := c.heap, arena := c.arena, targets := hashes } tree
        else pure (false, { heap := c.heap, arena := c.arena, targets := hashes })
      let s' := { s with roots := c.roots }
      if !ok then
        let heap ← recover t.arena c.recovery t.heap
        return (false, { s' with ext := heap })
      else
        let m ← rememberTargetsI 0 hashes proof.sorted s.posmap
        return (true, { s' with ext := t.heap, posmap := m })

end Pol
end Utreexo
