import Verif.Model.Accumulator

/-!
# Model of `RamForest` (include/ram_forest.h, src/ram_forest.cpp)

`m_data` is a list of rows of hashes. File input/output is modelled separately in
`Verif/Model/File.lean`.
-/

namespace Utreexo

/-- `RamForest::Node` (src/ram_forest.cpp:17-45). `hash = none` is the uninitialised `m_hash` of
the constructor without a hash. -/
structure RNode (H : Type) where
  hash : Option H
  numLeaves : Nat
  pos : Nat
  deriving DecidableEq, Repr

/-- `UndoBatch` (include/batchproof.h:57-83) with abstract hashes. -/
structure UndoBatch (H : Type) where
  numAdds : Nat
  positions : List Nat
  hashes : List H
  deriving DecidableEq, Repr

/-- A `RamForest`: base class state plus `m_data`. -/
abbrev RamForest (H : Type) := Acc H (RNode H) (List (List H))

namespace Ram
variable {H : Type} [DecidableEq H] [HashOps H]

/-- `RamForest::RamForest(uint64_t)` (src/ram_forest.cpp:92-96). -/
def mk (numLeaves : Nat) : RamForest H :=
  { numLeaves := numLeaves, roots := [], posmap := [], ext := [[]] }

/-- `RamForest::Read(ForestState, uint64_t)` (src/ram_forest.cpp:187-197). -/
def readIn (s : RamForest H) (cs pos : Nat) : Res H := do
  let row ← St.detectRow cs pos
  let offset ← St.rowOffset cs pos
  cassert (row < s.ext.length)
  let rowData ← vecAt s.ext row
  cassert (sub64 pos offset < rowData.length)
  vecAt rowData (sub64 pos offset)

/-- `RamForest::Read(uint64_t)` (src/ram_forest.cpp:199-203); `.value()` never throws. -/
def read (s : RamForest H) (pos : Nat) : Res H := readIn s s.numLeaves pos

/-- `RamForest::ReadLeafRange` (src/ram_forest.cpp:205-212), `range` iterations from `pos`. -/
def readLeafRange (s : RamForest H) : Nat → Nat → Res (List H)
  | _, 0 => .ok []
  | pos, range + 1 => do
    let h ← read s pos
    let hs ← readLeafRange s (pos + 1) range
    return h :: hs

/-- The loop of `SwapRange` (src/ram_forest.cpp:222-224): `std::swap` of two vector elements. -/
def swapLoop (row : List H) (a b : Nat) : Nat → Res (List H)
  | 0 => .ok row
  | k + 1 => do
    let x ← vecGet row a
    let y ← vecGet row b
    let row1 ← vecSet row a y
    let row2 ← vecSet row1 b x
    swapLoop row2 (a + 1) (b + 1) k

/-- `RamForest::SwapRange` (src/ram_forest.cpp:214-225). -/
def swapRange (s : RamForest H) (src dst range : Nat) : Res (RamForest H) := do
  let row ← St.detectRow s.numLeaves src
  let offFrom ← St.rowOffset s.numLeaves src
  let offTo ← St.rowOffset s.numLeaves dst
  let rowData ← vecAt s.ext row
  let rowData' ← swapLoop rowData (sub64 src offFrom) (sub64 dst offTo) range
  return { s with ext := s.ext.set row rowData' }

/-- `1 << row` computed in `int` (src/ram_forest.cpp:237): rows of 31 and above do not fit. -/
def shlInt (row : Nat) : Res Nat := if row < 31 then .ok (1 <<< row) else .error .ub

/-- The loop of `SwapSubTrees` (src/ram_forest.cpp:237-241): ranges `2^row, ..., 2, 1`. -/
def swapTreeLoop (s : RamForest H) (src dst : Nat) : Nat → Nat → Res (RamForest H × Nat)
  | 0, _ => .error .ub
  | fuel + 1, range =>
    if range = 0 then .ok (s, dst) else do
      let s' ← swapRange s src dst range
      let a ← St.parent s.numLeaves src
      let b ← St.parent s.numLeaves dst
      swapTreeLoop s' a b fuel (range >>> 1)

/-- `RamForest::SwapSubTrees` (src/ram_forest.cpp:227-244). -/
def swapSubTrees (s : RamForest H) (src dst : Nat) : Res (Option (RNode H) × RamForest H) := do
  let row ← St.detectRow s.numLeaves src
  let row' ← St.detectRow s.numLeaves dst
  cassert (row = row')
  let a ← St.leftDescendant s.numLeaves src row
  let b ← St.leftDescendant s.numLeaves dst row
  let range ← shlInt row
  let (s', p) ← swapTreeLoop s a b 66 range
  return (some { hash := none, numLeaves := s.numLeaves, pos := p }, s')

/-- `RamForest::MergeRoot` (src/ram_forest.cpp:246-266). -/
def mergeRoot (s : RamForest H) (parentPos : Nat) (parentHash : H) :
    Res (RNode H × RamForest H) := do
  cassert (s.roots.length ≥ 2)
  let roots := s.roots.dropLast.dropLast
  let row ← St.detectRow s.numLeaves parentPos
  cassert (s.ext.length > row)
  let rowData ← vecAt s.ext row
  let rowData := rowData ++ [parentHash]
  let offset ← St.rowOffset s.numLeaves parentPos
  let rowData ← vecSet rowData (sub64 parentPos offset) parentHash
  let last ← vecGet rowData (rowData.length - 1)
  let node : RNode H := { hash := some last, numLeaves := s.numLeaves, pos := parentPos }
  return (node, { s with roots := roots ++ [node], ext := s.ext.set row rowData })

/-- `RamForest::NewLeaf` (src/ram_forest.cpp:268-278). -/
def newLeaf (s : RamForest H) (leaf : Leaf H) : Res (RNode H × RamForest H) := do
  let row0 ← vecGet s.ext 0
  let row0' ← vecSet row0 s.numLeaves leaf.1
  let node : RNode H := { hash := some leaf.1, numLeaves := s.numLeaves, pos := s.numLeaves }
  return (node, { s with
    ext := s.ext.set 0 row0'
    roots := s.roots ++ [node]
    posmap := PosMap.insert s.posmap leaf.1 s.numLeaves })

/-- Erasing the deleted leaves from the position map (src/ram_forest.cpp:287-289), `k` leaves from
`pos` on. -/
def eraseLoop (s : RamForest H) : Nat → Nat → PosMap H → Res (PosMap H)
  | _, 0, m => .ok m
  | pos, k + 1, m => do
    let h ← read s pos
    eraseLoop s (pos + 1) k (PosMap.erase m h)

/-- Reading the new roots (src/ram_forest.cpp:300-304, 358-360). -/
def readRoots (s : RamForest H) (numLeaves : Nat) : List Nat → Res (List (RNode H))
  | [] => .ok []
  | p :: ps => do
    let h ← read s p
    let rest ← readRoots s numLeaves ps
    return { hash := some h, numLeaves := numLeaves, pos := p } :: rest

/-- `RamForest::FinalizeRemove` (src/ram_forest.cpp:280-307). -/
def finalizeRemove (s : RamForest H) (next : Nat) : Res (RamForest H) := do
  cassert (next ≤ s.numLeaves)
  let m ← eraseLoop s next (s.numLeaves - next) s.posmap
  cassert (m.length = next)
  let newPositions ← St.rootPositionsOf s.numLeaves next
  let newRoots ← readRoots { s with posmap := m } next newPositions
  return { s with posmap := m, roots := newRoots }

/-- `RamForest::Node::GetHash` (src/ram_forest.cpp:48-51). -/
def nodeHash (_s : RamForest H) (d : RNode H) : Res H :=
  match d.hash with
  | some h => .ok h
  | none => .error .ub

/-- `RamForest::Node::ReHash` (src/ram_forest.cpp:53-70). The node object's own `m_hash` is not
read afterwards for dirty nodes, so only the forest is returned. -/
def nodeReHash (s : RamForest H) (d : RNode H) : Res (RamForest H) := do
  let l ← St.child d.numLeaves d.pos 0
  let r ← St.child d.numLeaves d.pos 1
  let lh ← read s l
  let rh ← read s r
  let h := HashOps.ph lh rh
  let row ← St.detectRow d.numLeaves d.pos
  let offset ← St.rowOffset d.numLeaves d.pos
  let rowData ← vecAt s.ext row
  let rowData' ← vecSet rowData (sub64 d.pos offset) h
  return { s with ext := s.ext.set row rowData' }

/-- `RamForest::Node::Parent` (src/ram_forest.cpp:72-88). -/
def nodeParent (_s : RamForest H) (d : RNode H) : Res (Option (RNode H)) := do
  let p ← St.parent d.numLeaves d.pos
  let row ← St.detectRow d.numLeaves d.pos
  let rowHasRoot ← St.hasRoot d.numLeaves row
  let rp ← St.rootPosition d.numLeaves row
  if rowHasRoot && rp == d.pos then return none
  else return some { hash := none, numLeaves := d.numLeaves, pos := p }

/-- The virtual functions of `RamForest`. -/
def vt : VT H (RNode H) (List (List H)) where
  read := fun s p => do return some (← read s p)
  readLeafRange := readLeafRange
  swapSubTrees := swapSubTrees
  mergeRoot := mergeRoot
  newLeaf := newLeaf
  finalizeRemove := finalizeRemove
  nodeHash := nodeHash
  nodePos := RNode.pos
  nodeSetPos := fun d p => { d with pos := p }
  nodeReHash := nodeReHash
  nodeParent := nodeParent

/-- Preallocation at the start of `Add` (src/ram_forest.cpp:327-333), rows `row ..` for `k` more
rows. -/
def prealloc (next : Nat) : Nat → Nat → List (List H) → Res (List (List H))
  | _, 0, data => .ok data
  | row, k + 1, data => do
    let data := if row ≥ data.length then data ++ [[]] else data
    let rowData ← vecAt data row
    let sz ← shr64 next row
    prealloc next (row + 1) k (data.set row (vecResize rowData sz HashOps.zero))

/-- `RamForest::Add` (src/ram_forest.cpp:323-341). -/
def add (s : RamForest H) (leaves : List (Leaf H)) : Res (RamForest H) := do
  let next := wrap64 (s.numLeaves + leaves.length)
  let data ← prealloc next 0 (St.numRows next + 1) s.ext
  cassert (data.length > St.numRows next)
  let s' ← Acc.add vt { s with ext := data } leaves
  cassert (next = s'.numLeaves)
  cassert (s'.posmap.length = s'.numLeaves)
  return s'

/-- The loop of `BuildUndoBatch` (src/ram_forest.cpp:368-372): `none` models `return false`. -/
def undoHashes (s : RamForest H) (prev : Nat) : Nat → Nat → Res (Option (List H))
  | _, 0 => .ok (some [])
  | pos, k + 1 => do
    match s.ext with
    | [] => return none
    | row0 :: _ =>
      if pos ≥ row0.length then return none
      else
        let h ← readIn s prev pos
        return (← undoHashes s prev (pos + 1) k).map (h :: ·)

/-- `RamForest::BuildUndoBatch` (src/ram_forest.cpp:363-376). -/
def buildUndoBatch (s : RamForest H) (numAdds : Nat) (targets : List Nat) :
    Res (Option (UndoBatch H)) := do
  let hs ← undoHashes s (wrap64 (s.numLeaves + targets.length)) s.numLeaves targets.length
  return hs.map (fun h => { numAdds := numAdds, positions := targets, hashes := h })

/-- `RamForest::Modify` (src/ram_forest.cpp:343-352): returns the boolean, the undo batch written
(if any) and the new state. -/
def modify (s : RamForest H) (leaves : List (Leaf H)) (targets : List Nat) :
    Res (Bool × Option (UndoBatch H) × RamForest H) := do
  let (ok, s1) ← Acc.remove vt s targets
  if !ok then return (false, none, s1)
  else
    match ← buildUndoBatch s1 leaves.length targets with
    | none => return (false, none, s1)
    | some undo =>
      let s2 ← add s1 leaves
      return (true, some undo, s2)

/-- `RamForest::RestoreRoots` (src/ram_forest.cpp:354-361). -/
def restoreRoots (s : RamForest H) : Res (RamForest H) := do
  let ps ← St.rootPositions s.numLeaves
  let roots ← readRoots s s.numLeaves ps
  return { s with roots := roots }

/-- Populating the position map from the bottom row in `Restore` (src/ram_forest.cpp:147-151). -/
def restorePosmap : List H → Nat → PosMap H → PosMap H
  | [], _, m => m
  | h :: hs, pos, m => restorePosmap hs (pos + 1) (PosMap.insert m h pos)

/-- The rows that `Commit` writes and `Restore` reads back (src/ram_forest.cpp:140-157, 176-182),
without the detour through bytes: see `C31_file` for the byte level functions of
`Verif/Model/File.lean`. -/
def reopenRows (data : List (List H)) : Nat → Nat → Nat → Res (List (List H))
  | 0, _, _ => .error .ub
  | fuel + 1, i, numHashes =>
    if numHashes = 0 then .ok [[]]
    else do
      let row ← vecGet data i
      cassert (numHashes ≤ row.length)
      let rest ← reopenRows data fuel (i + 1) (numHashes >>> 1)
      return row.take numHashes :: rest

/-- Closing a forest (`Commit`) and opening it again (`Restore`). -/
def reopen (s : RamForest H) : Res (RamForest H) := do
  let data ← reopenRows s.ext 66 0 s.numLeaves
  restoreRoots { numLeaves := s.numLeaves, roots := [], posmap := restorePosmap (data.headD []) 0 [], ext := data }

/-- Erasing added leaves in `Undo` (src/ram_forest.cpp:387-391): `none` models `return false`
together with the map erased so far (first component). -/
def undoErase (s : RamForest H) : Nat → Nat → PosMap H → Res (PosMap H × Bool)
  | _, 0, m => .ok (m, true)
  | i, k + 1, m => do
    let h ← read s i
    match PosMap.find m h with
    | none => return (m, false)
    | some _ => undoErase s (i + 1) k (PosMap.erase m h)

/-- Placing the deleted hashes (src/ram_forest.cpp:401-410). Returns row 0, the map, the inserted
positions and whether the loop completed. `n0` is `m_num_leaves` after removing the additions. -/
def undoPlace (n0 : Nat) : List H → Nat → List H → PosMap H → Res (List H × PosMap H × Bool)
  | [], _, row0, m => .ok (row0, m, true)
  | h :: hs, i, row0, m =>
    if wrap64 (n0 + i) ≥ row0.length then .ok (row0, m, false)
    else
      let row0' := row0.set (wrap64 (n0 + i)) h
      match PosMap.find m h with
      | some _ => .ok (row0', m, false)
      | none => undoPlace n0 hs (i + 1) row0' (PosMap.insert m h (wrap64 (n0 + i)))

/-- The swaps of `Undo` in reverse order (src/ram_forest.cpp:415-430). -/
def undoSwaps : List St.Swap → RamForest H → Res (RamForest H)
  | [], s => .ok s
  | sw :: sws, s => do
    let range := if !sw.isRange then 1 else sw.range
    let s1 ← Acc.updatePosRange vt s sw.src sw.dst range
    let s2 ← swapRange s1 sw.src sw.dst range
    undoSwaps sws s2

/-- The positions inserted into `dirt_set` by the swaps (src/ram_forest.cpp:423-426). -/
def swapDirt (sw : St.Swap) : List Nat :=
  let range := if !sw.isRange then 1 else sw.range
  (List.range range).flatMap fun i => [wrap64 (sw.src + i), wrap64 (sw.dst + i)]

/-- `std::unordered_set` then `std::sort` (src/ram_forest.cpp:399, 434-435): sorted without
duplicates. -/
def insertUniq (x : Nat) : List Nat → List Nat
  | [] => [x]
  | y :: ys => if x < y then x :: y :: ys else if x = y then y :: ys else y :: insertUniq x ys

/-- Sorted duplicate free list of the given positions. -/
def sortUniq (l : List Nat) : List Nat := l.foldr insertUniq []

/-- The first row of dirt (src/ram_forest.cpp:437-449). `out` is `dirt` so far. -/
def firstDirt (prev : Nat) : List Nat → List Nat → Res (List Nat)
  | [], out => .ok out
  | pos :: rest, out => do
    let pp ← St.parent prev pos
    let hr ← St.hasRoot prev 0
    let skip ← if hr then do pure (decide ((← St.rootPosition prev 0) ≤ pos)) else pure false
    if skip then firstDirt prev rest out
    else if out.getLast? = some pp then firstDirt prev rest out
    else firstDirt prev rest (out ++ [pp])

/-- Rehashing one row in `Undo` (src/ram_forest.cpp:455-461). -/
def undoRehashRow : List (RNode H) → RamForest H → List (RNode H) → Res (RamForest H × List (RNode H))
  | [], s, next => .ok (s, next)
  | d :: ds, s, next => do
    let s1 ← nodeReHash s d
    match ← nodeParent s1 d with
    | none => undoRehashRow ds s1 next
    | some p =>
      let push := match next.getLast? with
        | none => true
        | some l => l.pos ≠ p.pos
      undoRehashRow ds s1 (if push then next ++ [p] else next)

/-- The row loop of `Undo` (src/ram_forest.cpp:451-463): `k` rows from row `r`. -/
def undoRehash : Nat → Nat → List (RNode H) → RamForest H → Res (RamForest H)
  | 0, _, _, s => .ok s
  | k + 1, r, dirt, s => do
    let rowData ← vecGet s.ext r
    let sz ← shr64 s.numLeaves r
    let s1 := { s with ext := s.ext.set r (vecResize rowData sz HashOps.zero) }
    let (s2, next) ← undoRehashRow dirt s1 []
    undoRehash k (r + 1) next s2

/-- `RamForest::Undo` (src/ram_forest.cpp:378-482). -/
def undo (s : RamForest H) (u : UndoBatch H) : Res (Bool × RamForest H) :=
  if s.ext.length = 0 then .ok (true, s)
  else do
    let prev := sub64 (wrap64 (s.numLeaves + u.positions.length)) u.numAdds
    let swaps ← St.undoTransform prev u.positions
    let start := sub64 s.numLeaves u.numAdds
    let (m1, ok1) ← undoErase s start (s.numLeaves - start) s.posmap
    if !ok1 then return (false, { s with posmap := m1 })
    else
      let n0 := sub64 s.numLeaves u.numAdds
      let row0 ← vecGet s.ext 0
      let row0 := vecResize row0 prev HashOps.zero
      let (row0', m2, ok2) ← undoPlace n0 u.hashes 0 row0 m1
      let s1 := { s with numLeaves := n0, posmap := m2, ext := s.ext.set 0 row0' }
      if !ok2 then return (false, s1)
      else
        let s2 := { s1 with numLeaves := prev }
        let s3 ← undoSwaps swaps.reverse s2
        let dirtSet := (List.range u.hashes.length).map (fun i => wrap64 (n0 + i))
          ++ swaps.reverse.flatMap swapDirt
        let first ← firstDirt prev (sortUniq dirtSet) []
        let dirt := first.map fun p => ({ hash := none, numLeaves := prev, pos := p } : RNode H)
        let s4 ← undoRehash (St.numRows prev) 1 dirt s3
        let s5 ← restoreRoots s4
        return (true, s5)

/-- `RamForest::GetLeaf` (src/ram_forest.cpp:484-488). -/
def getLeaf (s : RamForest H) (pos : Nat) : Res H := do
  cassert (pos < s.numLeaves)
  read s pos

/-- `RamForest::Verify` (src/ram_forest.cpp:310-321): only checks that the hashes exist. -/
def verify (s : RamForest H) (_proof : BatchProof H) (hashes : List H) : Bool :=
  hashes.all fun h => (PosMap.find s.posmap h).isSome

/-- `RamForest::Roots`. -/
def roots (s : RamForest H) : Res (List H) := Acc.rootHashes vt s

/-- `RamForest::operator==` (src/ram_forest.cpp:490-498). -/
def equal (s t : RamForest H) : Res Bool := do
  let a ← roots s
  let b ← roots t
  return s.numLeaves == t.numLeaves && a == b && PosMap.equal s.posmap t.posmap

end Ram
end Utreexo
