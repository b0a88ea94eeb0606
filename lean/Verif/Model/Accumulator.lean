import Verif.Model.State

/-!
# Model of the abstract `Accumulator` (include/accumulator.h, src/accumulator.cpp)

`H` is the type of 32-byte hashes, left abstract together with the parent hash function
(`Accumulator::ParentHash`, src/accumulator.cpp:62-68, which is a deterministic function of the
two child hashes; its SHA-512/256 definition is modelled in `Verif/Model/Sha512.lean`) and the
all-zero hash used by value-initialisation.

The C++ class hierarchy (virtual functions) is modelled by a record of functions `VT`; the bodies
of `Accumulator::Add`, `Remove`, `Prove`, ... are written once against that record, exactly as in
the C++ base class.
-/

namespace Utreexo

/-- The hash primitives. -/
class HashOps (H : Type) where
  /-- `Accumulator::ParentHash` -/
  ph : H → H → H
  /-- the all-zero `std::array<uint8_t, 32>` -/
  zero : H

/-- A leaf: hash and remember flag (include/accumulator.h:18). -/
abbrev Leaf (H : Type) := H × Bool

/-! ## `std::unordered_map<Hash, uint64_t>` as an association list with unique keys -/

/-- The position map (include/accumulator.h:90). -/
abbrev PosMap (H : Type) := List (H × Nat)

namespace PosMap
variable {H : Type} [DecidableEq H]

/-- `map.find(h)`. -/
def find (m : PosMap H) (h : H) : Option Nat :=
  match m with
  | [] => none
  | (k, v) :: rest => if k = h then some v else find rest h

/-- `map.erase(h)`. -/
def erase (m : PosMap H) (h : H) : PosMap H := m.filter (fun e => e.1 ≠ h)

/-- `map[h] = v`. -/
def insert (m : PosMap H) (h : H) (v : Nat) : PosMap H := (h, v) :: erase m h

/-- `a == b` of two maps: the same number of entries, and every entry of `a` is found in `b` with the same value. -/
def equal (a b : PosMap H) : Bool := a.length == b.length && a.all fun e => find b e.1 == some e.2

end PosMap

/-- State common to all accumulators (include/accumulator.h:79-90): `N` is the node type of the
implementation, `X` the implementation's own members. -/
structure Acc (H N X : Type) where
  numLeaves : Nat
  roots : List N
  posmap : PosMap H
  ext : X
  deriving DecidableEq

/-- The virtual functions of `Accumulator` (include/accumulator.h:96-119) and of
`Accumulator::Node` (src/node.h:11-43). A `NodePtr` that may be null is an `Option`. -/
structure VT (H N X : Type) where
  read : Acc H N X → Nat → Res (Option H)
  readLeafRange : Acc H N X → Nat → Nat → Res (List H)
  swapSubTrees : Acc H N X → Nat → Nat → Res (Option N × Acc H N X)
  mergeRoot : Acc H N X → Nat → H → Res (N × Acc H N X)
  newLeaf : Acc H N X → Leaf H → Res (N × Acc H N X)
  finalizeRemove : Acc H N X → Nat → Res (Acc H N X)
  nodeHash : Acc H N X → N → Res H
  nodePos : N → Nat
  nodeSetPos : N → Nat → N
  nodeReHash : Acc H N X → N → Res (Acc H N X)
  nodeParent : Acc H N X → N → Res (Option N)

namespace Acc
variable {H N X : Type} [DecidableEq H] [HashOps H]

/-- `Accumulator::Roots` (src/accumulator.cpp:32-40): the hashes of `m_roots` in order. -/
def rootHashes (vt : VT H N X) (s : Acc H N X) : Res (List H) := s.roots.mapM (vt.nodeHash s)

/-- `m_posmap[h] = pos_it->second + offset` if `h` is in the map, one step of the loops at
src/accumulator.cpp:108-113 and 115-120. -/
def shiftPos (offset : Nat) (m : PosMap H) (h : H) : PosMap H :=
  match PosMap.find m h with
  | some p => PosMap.insert m h (wrap64 (p + offset))
  | none => m

/-- `Accumulator::UpdatePositionMapForRange` (src/accumulator.cpp:97-121). The signed offset
`to - from` is represented by its residue modulo `2^64`, which is how it enters the sums. -/
def updatePosRange (vt : VT H N X) (s : Acc H N X) (src dst range : Nat) : Res (Acc H N X) :=
  if s.posmap.length = 0 then .ok s
  else do
    let fromRange ← vt.readLeafRange s src range
    let toRange ← vt.readLeafRange s dst range
    let m1 := fromRange.foldl (shiftPos (sub64 dst src)) s.posmap
    let m2 := toRange.foldl (shiftPos (sub64 src dst)) m1
    return { s with posmap := m2 }

/-- `Accumulator::UpdatePositionMapForSubtreeSwap` (src/accumulator.cpp:123-133). -/
def updatePosSubtree (vt : VT H N X) (s : Acc H N X) (src dst : Nat) : Res (Acc H N X) := do
  let row ← St.detectRow s.numLeaves src
  let a ← St.leftDescendant s.numLeaves src row
  let b ← St.leftDescendant s.numLeaves dst row
  let range ← shl64 1 row
  updatePosRange vt s a b range

/-- `m_roots[i]` with an `int` index (src/accumulator.cpp:157). -/
def rootAt (s : Acc H N X) (i : Int) : Res N :=
  if 0 ≤ i then vecGet s.roots i.toNat else .error .ub

/-- The merge loop of `Add` (src/accumulator.cpp:155-161). `cs` is the leaf count of
`current_state`. Row 64 would be an undefined shift in `HasRoot`. -/
def mergeLoop (vt : VT H N X) (cs : Nat) :
    Nat → Nat → Int → N → Acc H N X → Res (Acc H N X)
  | 0, _, _, _, _ => .error .ub
  | fuel + 1, row, root, newRoot, s => do
    if (← St.hasRoot cs row) then
      let l ← rootAt s root
      let lh ← vt.nodeHash s l
      let rh ← vt.nodeHash s newRoot
      let pp ← St.parent cs (vt.nodePos newRoot)
      let (newRoot', s') ← vt.mergeRoot s pp (HashOps.ph lh rh)
      mergeLoop vt cs fuel (row + 1) (root - 1) newRoot' s'
    else return s

/-- One iteration of the loop of `Accumulator::Add` (src/accumulator.cpp:149-180). -/
def addOne (vt : VT H N X) (s : Acc H N X) (leaf : Leaf H) : Res (Acc H N X) := do
  let cs := s.numLeaves
  let root : Int := (s.roots.length : Int) - 1
  let (newRoot, s1) ← vt.newLeaf s leaf
  let s2 ← mergeLoop vt cs 66 0 root newRoot s1
  let prevRows := St.numRows cs
  let s3 := { s2 with numLeaves := wrap64 (s2.numLeaves + 1) }
  let n' := s3.numLeaves
  if prevRows = 0 ∨ prevRows = St.numRows n' then return s3
  else
    match s3.roots with
    | r0 :: r1 :: rest =>
      let p0 ← St.rootPosition n' 0
      let p1 ← St.rootPosition n' (St.numRows n' - 1)
      return { s3 with roots := vt.nodeSetPos r0 p1 :: vt.nodeSetPos r1 p0 :: rest }
    | _ => .error .abort

/-- `Accumulator::Add` (src/accumulator.cpp:135-183). The uniqueness `CHECK_SAFE` is a no-op in
normal builds. -/
def add (vt : VT H N X) (s : Acc H N X) (leaves : List (Leaf H)) : Res (Acc H N X) :=
  leaves.foldlM (addOne vt) s

/-- Executing the swaps of a row (src/accumulator.cpp:208-212). Returns the state and the dirty
nodes. A null dirty node of a non-collapse swap is pushed and dereferenced later; it is kept as
`none`. -/
def runSwaps (vt : VT H N X) :
    List St.Swap → Acc H N X → List (Option N) → Res (Acc H N X × List (Option N))
  | [], s, dirty => .ok (s, dirty)
  | sw :: sws, s, dirty => do
    let s1 ← updatePosSubtree vt s sw.src sw.dst
    let (d, s2) ← vt.swapSubTrees s1 sw.src sw.dst
    runSwaps vt sws s2 (if !sw.collapse then dirty ++ [d] else dirty)

/-- Rehashing the dirt of a row (src/accumulator.cpp:216-222). `cs` is the leaf count of
`current_state`; `next` accumulates `next_dirty_nodes`. -/
def rehashDirty (vt : VT H N X) (cs : Nat) :
    List (Option N) → Acc H N X → List N → Res (Acc H N X × List N)
  | [], s, next => .ok (s, next)
  | none :: _, _, _ => .error .ub
  | some d :: ds, s, next => do
    let s1 ← vt.nodeReHash s d
    let push ← match next.getLast? with
      | none => pure true
      | some l => do
        let p ← St.parent cs (vt.nodePos d)
        pure (vt.nodePos l ≠ p)
    if push then
      match ← vt.nodeParent s1 d with
      | some p => rehashDirty vt cs ds s1 (next ++ [p])
      | none => rehashDirty vt cs ds s1 next
    else rehashDirty vt cs ds s1 next

/-- The row loop of `Remove` (src/accumulator.cpp:203-225): `swaps` are the remaining rows of
swaps (missing rows have none), `k` the remaining rows of the forest. -/
def removeRows (vt : VT H N X) (cs : Nat) :
    Nat → List (List St.Swap) → Acc H N X → List N → Res (Acc H N X × List N)
  | 0, _, s, dirty => .ok (s, dirty)
  | k + 1, swaps, s, dirty => do
    let (s1, dirty1) ← runSwaps vt (swaps.headD []) s (dirty.map some)
    let (s2, next) ← rehashDirty vt cs dirty1 s1 []
    removeRows vt cs k swaps.tail s2 next

/-- `Accumulator::Remove` (src/accumulator.cpp:185-234). -/
def remove (vt : VT H N X) (s : Acc H N X) (targets : List Nat) : Res (Bool × Acc H N X) :=
  if targets.length = 0 then .ok (true, s)
  else do
    let cs := s.numLeaves
    if !(← St.checkTargetsSanity cs targets) then return (false, s)
    else
      let swaps ← St.transform cs targets
      let (s1, dirty) ← removeRows vt cs (St.numRows cs) swaps s []
      cassert (dirty.length = 0)
      let next := sub64 s1.numLeaves targets.length
      let s2 ← vt.finalizeRemove s1 next
      return (true, { s2 with numLeaves := next })

/-- `Accumulator::Modify` (src/accumulator.cpp:24-30), given the implementation's `Add`. -/
def modify (vt : VT H N X) (addImpl : Acc H N X → List (Leaf H) → Res (Acc H N X))
    (s : Acc H N X) (leaves : List (Leaf H)) (targets : List Nat) : Res (Bool × Acc H N X) := do
  let (ok, s1) ← remove vt s targets
  if !ok then return (false, s1)
  else
    let s2 ← addImpl s1 leaves
    return (true, s2)

/-- `BatchProof` (include/batchproof.h:12-54) with abstract hashes. -/
structure _root_.Utreexo.BatchProof (H : Type) where
  targets : List Nat := []
  sorted : List Nat := []
  hashes : List H := []
  deriving DecidableEq, Repr

/-- `BatchProof(targets, proof)` (include/batchproof.h:22-26). -/
def _root_.Utreexo.BatchProof.mk' {H : Type} (targets : List Nat) (hashes : List H) : BatchProof H :=
  { targets := targets, sorted := St.sortU64 targets, hashes := hashes }

/-- The lookups of `Prove` (src/accumulator.cpp:241-248). -/
def lookupTargets (m : PosMap H) : List H → Option (List Nat)
  | [] => some []
  | h :: hs =>
    match PosMap.find m h with
    | none => none
    | some p => (lookupTargets m hs).map (p :: ·)

/-- Reading the proof hashes in `Prove` (src/accumulator.cpp:261-266): `none` when a hash is not
available. -/
def readProof (vt : VT H N X) (s : Acc H N X) : List Nat → Res (Option (List H))
  | [] => .ok (some [])
  | p :: ps => do
    match ← vt.read s p with
    | none => return none
    | some h => return (← readProof vt s ps).map (h :: ·)

/-- `Accumulator::Prove` (src/accumulator.cpp:236-271): `none` models returning false with the
output argument untouched. -/
def prove (vt : VT H N X) (s : Acc H N X) (hashes : List H) : Res (Option (BatchProof H)) :=
  match lookupTargets s.posmap hashes with
  | none => .ok none
  | some targets => do
    let sorted := St.sortU64 targets
    if !(← St.checkTargetsSanity s.numLeaves sorted) then return none
    else
      let pp ← St.proofPositions s.numLeaves sorted
      match ← readProof vt s pp.1 with
      | none => return none
      | some ph => return some (BatchProof.mk' targets ph)

/-- `Accumulator::ComparePositionMap` (src/accumulator.cpp:70-80): the iteration dereferences
`end()` when the other map lacks the key, which is undefined behaviour. -/
def comparePositionMap {N' X' : Type} (s : Acc H N X) (other : Acc H N' X') : Res Bool :=
  let rec go : PosMap H → Res Bool
    | [] => .ok true
    | (h, p) :: rest =>
      match PosMap.find other.posmap h with
      | none => .error .ub
      | some q => if q ≠ p then .ok false else go rest
  go s.posmap

end Acc
end Utreexo
