import Verif.Model.RamForest
import Verif.Model.Pollard

/-!
# Counting the leaf positions that a block looks up

Before two subtrees are swapped, `UpdatePositionMapForRange` (src/accumulator.cpp:97-121) reads all leaf positions below the two, and
`FinalizeRemove` (src/pollard.cpp:309-313, src/ram_forest.cpp:287-289) reads the positions of the deleted leaves. The functions of
`Verif/Model/Accumulator.lean` that lead there are repeated here, each with the number of leaf positions looked up. A position counts
once for each iteration of a loop, although a pollard reads a position a second time when it knows the hash (src/pollard.cpp:167-169).
-/

namespace Utreexo

/-- The two virtual functions that look up leaf positions (include/accumulator.h:96-119), each with the number of positions. -/
structure Scan (H N X : Type) where
  readLeafRange : Acc H N X → Nat → Nat → Res (List H × Nat)
  finalizeRemove : Acc H N X → Nat → Res (Acc H N X × Nat)

namespace Acc
variable {H N X : Type} [DecidableEq H] [HashOps H]

/-- `updatePosRange` (src/accumulator.cpp:97-121) with the number of positions. -/
def updatePosRangeS (sc : Scan H N X) (s : Acc H N X) (src dst range : Nat) : Res (Acc H N X × Nat) :=
  if s.posmap.length = 0 then .ok (s, 0)
  else do
    let (fromRange, a) ← sc.readLeafRange s src range
    let (toRange, b) ← sc.readLeafRange s dst range
    let m1 := fromRange.foldl (shiftPos (sub64 dst src)) s.posmap
    let m2 := toRange.foldl (shiftPos (sub64 src dst)) m1
    return ({ s with posmap := m2 }, a + b)

/-- `updatePosSubtree` (src/accumulator.cpp:123-133) with the number of positions. -/
def updatePosSubtreeS (sc : Scan H N X) (s : Acc H N X) (src dst : Nat) : Res (Acc H N X × Nat) := do
  let row ← St.detectRow s.numLeaves src
  let a ← St.leftDescendant s.numLeaves src row
  let b ← St.leftDescendant s.numLeaves dst row
  let range ← shl64 1 row
  updatePosRangeS sc s a b range

/-- `runSwaps` (src/accumulator.cpp:208-212) with the number of positions. -/
def runSwapsS (vt : VT H N X) (sc : Scan H N X) :
    List St.Swap → Acc H N X → List (Option N) → Res ((Acc H N X × List (Option N)) × Nat)
  | [], s, dirty => .ok ((s, dirty), 0)
  | sw :: sws, s, dirty => do
    let (s1, a) ← updatePosSubtreeS sc s sw.src sw.dst
    let (d, s2) ← vt.swapSubTrees s1 sw.src sw.dst
    let (r, b) ← runSwapsS vt sc sws s2 (if !sw.collapse then dirty ++ [d] else dirty)
    return (r, a + b)

/-- `removeRows` (src/accumulator.cpp:203-225) with the number of positions; rehashing looks up none. -/
def removeRowsS (vt : VT H N X) (sc : Scan H N X) (cs : Nat) :
    Nat → List (List St.Swap) → Acc H N X → List N → Res ((Acc H N X × List N) × Nat)
  | 0, _, s, dirty => .ok ((s, dirty), 0)
  | k + 1, swaps, s, dirty => do
    let ((s1, dirty1), a) ← runSwapsS vt sc (swaps.headD []) s (dirty.map some)
    let (s2, next) ← rehashDirty vt cs dirty1 s1 []
    let (r, b) ← removeRowsS vt sc cs k swaps.tail s2 next
    return (r, a + b)

/-- `remove` (src/accumulator.cpp:185-234) with the number of positions. -/
def removeS (vt : VT H N X) (sc : Scan H N X) (s : Acc H N X) (targets : List Nat) : Res ((Bool × Acc H N X) × Nat) :=
  if targets.length = 0 then .ok ((true, s), 0)
  else do
    let cs := s.numLeaves
    if !(← St.checkTargetsSanity cs targets) then return ((false, s), 0)
    else
      let swaps ← St.transform cs targets
      let ((s1, dirty), a) ← removeRowsS vt sc cs (St.numRows cs) swaps s []
      cassert (dirty.length = 0)
      let next := sub64 s1.numLeaves targets.length
      let (s2, b) ← sc.finalizeRemove s1 next
      return ((true, { s2 with numLeaves := next }), a + b)

end Acc

variable {H : Type} [DecidableEq H] [HashOps H]

namespace Pol

/-- `Pollard::ReadLeafRange` (src/pollard.cpp:160-172) with the number of iterations. -/
def readLeafRangeS (s : Pollard H) : Nat → Nat → Res (List H × Nat)
  | _, 0 => .ok ([], 0)
  | pos, range + 1 => do
    let h ← read s pos
    let (hs, c) ← readLeafRangeS s (pos + 1) range
    match h with
    | some h => return (h :: hs, c + 1)
    | none => return (hs, c + 1)

/-- `eraseLoop` (src/pollard.cpp:309-313) with the number of iterations. -/
def eraseLoopS (s : Pollard H) : Nat → Nat → PosMap H → Res (PosMap H × Nat)
  | _, 0, m => .ok (m, 0)
  | pos, k + 1, m => do
    let h ← read s pos
    let (r, c) ← eraseLoopS s (pos + 1) k (match h with | some h => PosMap.erase m h | none => m)
    return (r, c + 1)

/-- `Pollard::FinalizeRemove` (src/pollard.cpp:304-348) with the number of leaf positions. -/
def finalizeRemoveS (s : Pollard H) (next : Nat) : Res (Pollard H × Nat) := do
  let (m, c) ← eraseLoopS s next (s.numLeaves - next) s.posmap
  let s := { s with posmap := m }
  let ps ← St.rootPositionsOf s.numLeaves next
  let (s', roots) ← selectRoots s ps.reverse []
  return ({ s' with roots := roots }, c)

/-- The counting functions of a pollard (src/pollard.cpp:160-172, 304-348). -/
def scan : Scan H PNode (List (INode H)) := ⟨readLeafRangeS, finalizeRemoveS⟩

/-- `Pollard::Modify` (src/accumulator.cpp:24-30) with the number of leaf positions looked up; `Add` looks up none. -/
def modifyS (s : Pollard H) (leaves : List (Leaf H)) (targets : List Nat) : Res ((Bool × Pollard H) × Nat) := do
  let ((ok, s1), c) ← Acc.removeS vt scan s targets
  if !ok then return ((false, s1), c)
  else
    let s2 ← Acc.add vt s1 leaves
    return ((true, s2), c)

end Pol

namespace Ram

/-- `RamForest::ReadLeafRange` (src/ram_forest.cpp:205-212) with the number of iterations. -/
def readLeafRangeS (s : RamForest H) : Nat → Nat → Res (List H × Nat)
  | _, 0 => .ok ([], 0)
  | pos, range + 1 => do
    let h ← read s pos
    let (hs, c) ← readLeafRangeS s (pos + 1) range
    return (h :: hs, c + 1)

/-- `eraseLoop` (src/ram_forest.cpp:287-289) with the number of iterations. -/
def eraseLoopS (s : RamForest H) : Nat → Nat → PosMap H → Res (PosMap H × Nat)
  | _, 0, m => .ok (m, 0)
  | pos, k + 1, m => do
    let h ← read s pos
    let (r, c) ← eraseLoopS s (pos + 1) k (PosMap.erase m h)
    return (r, c + 1)

/-- `RamForest::FinalizeRemove` (src/ram_forest.cpp:280-307) with the number of leaf positions. -/
def finalizeRemoveS (s : RamForest H) (next : Nat) : Res (RamForest H × Nat) := do
  cassert (next ≤ s.numLeaves)
  let (m, c) ← eraseLoopS s next (s.numLeaves - next) s.posmap
  cassert (m.length = next)
  let newPositions ← St.rootPositionsOf s.numLeaves next
  let newRoots ← readRoots { s with posmap := m } next newPositions
  return ({ s with posmap := m, roots := newRoots }, c)

/-- The counting functions of a forest (src/ram_forest.cpp:205-212, 280-307). -/
def scan : Scan H (RNode H) (List (List H)) := ⟨readLeafRangeS, finalizeRemoveS⟩

/-- `RamForest::Modify` (src/ram_forest.cpp:343-352) with the number of leaf positions looked up by `Remove`. -/
def modifyS (s : RamForest H) (leaves : List (Leaf H)) (targets : List Nat) :
    Res ((Bool × Option (UndoBatch H) × RamForest H) × Nat) := do
  let ((ok, s1), c) ← Acc.removeS vt scan s targets
  if !ok then return ((false, none, s1), c)
  else
    match ← buildUndoBatch s1 leaves.length targets with
    | none => return ((false, none, s1), c)
    | some undo =>
      let s2 ← add s1 leaves
      return ((true, some undo, s2), c)

end Ram

end Utreexo
