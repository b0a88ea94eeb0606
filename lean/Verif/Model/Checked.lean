import Verif.Model.Pollard

/-!
# The `UTREEXO_VERIFY` build

With `UTREEXO_VERIFY` the macro `CHECK_SAFE` aborts when its condition is false (src/check.h:13-29); otherwise
it does nothing. Here are all functions that contain such a check or call a function that does, with the
checks. The check of src/pollard.cpp:583 repeats the condition of line 557 and is left out.
-/

namespace Utreexo

namespace St

/-- `ForestState::LeftChild` (src/state.cpp:77-81). -/
def leftChildV (n pos : Nat) : Res Nat := do
  cassert (pos ≥ n)
  leftChild n pos

/-- `ForestState::Child` (src/state.cpp:83-86). -/
def childV (n pos placement : Nat) : Res Nat := do
  cassert (pos ≥ n)
  child n pos placement

/-- `ForestState::LeftDescendant` (src/state.cpp:88-98). -/
def leftDescendantV (n pos drop : Nat) : Res Nat := do
  let row ← detectRow n pos
  cassert (drop ≤ row)
  leftDescendant n pos drop

/-- `ForestState::Swap::ToLeaves` (src/state.cpp:601-612). -/
def toLeavesV (n : Nat) (s : Swap) : Res Swap := do
  let row ← detectRow n s.src
  if row = 0 then return s
  else
    let a ← leftDescendantV n s.src row
    let b ← leftDescendantV n s.dst row
    let r ← shl64 1 row
    return { src := a, dst := b, isRange := true, range := r }

/-- One row of `UndoTransform` (src/state.cpp:398-401). -/
def undoRowV (n : Nat) : List Swap → Res (List Swap)
  | [] => .ok []
  | s :: ss =>
    if s.src = s.dst then undoRowV n ss else do
      let s' ← toLeavesV n s
      let ss' ← undoRowV n ss
      return s' :: ss'

/-- The row loop of `UndoTransform` (src/state.cpp:396-402). -/
def undoRowsV (n : Nat) : List (List Swap) → Res (List Swap)
  | [] => .ok []
  | r :: rs => do
    let a ← undoRowV n r
    let b ← undoRowsV n rs
    return a ++ b

/-- `ForestState::UndoTransform` (src/state.cpp:391-405). -/
def undoTransformV (n : Nat) (targets : List Nat) : Res (List Swap) := do
  let prev ← transform n targets
  undoRowsV n prev

end St

variable {H : Type} [DecidableEq H] [HashOps H]

namespace Acc
variable {N X : Type}

/-- `Accumulator::Add` (src/accumulator.cpp:135-183): the leaves must not be in the position map. -/
def addV (vt : VT H N X) (s : Acc H N X) (leaves : List (Leaf H)) : Res (Acc H N X) := do
  cassert (leaves.all fun l => (PosMap.find s.posmap l.1).isNone)
  add vt s leaves

/-- `Accumulator::UpdatePositionMapForSubtreeSwap` (src/accumulator.cpp:123-133). -/
def updatePosSubtreeV (vt : VT H N X) (s : Acc H N X) (src dst : Nat) : Res (Acc H N X) := do
  let row ← St.detectRow s.numLeaves src
  let a ← St.leftDescendantV s.numLeaves src row
  let b ← St.leftDescendantV s.numLeaves dst row
  let range ← shl64 1 row
  updatePosRange vt s a b range

/-- Executing the swaps of a row (src/accumulator.cpp:208-212). -/
def runSwapsV (vt : VT H N X) :
    List St.Swap → Acc H N X → List (Option N) → Res (Acc H N X × List (Option N))
  | [], s, dirty => .ok (s, dirty)
  | sw :: sws, s, dirty => do
    let s1 ← updatePosSubtreeV vt s sw.src sw.dst
    let (d, s2) ← vt.swapSubTrees s1 sw.src sw.dst
    runSwapsV vt sws s2 (if !sw.collapse then dirty ++ [d] else dirty)

/-- The row loop of `Remove` (src/accumulator.cpp:203-225). -/
def removeRowsV (vt : VT H N X) (cs : Nat) :
    Nat → List (List St.Swap) → Acc H N X → List N → Res (Acc H N X × List N)
  | 0, _, s, dirty => .ok (s, dirty)
  | k + 1, swaps, s, dirty => do
    let (s1, dirty1) ← runSwapsV vt (swaps.headD []) s (dirty.map some)
    let (s2, next) ← rehashDirty vt cs dirty1 s1 []
    removeRowsV vt cs k swaps.tail s2 next

/-- `Accumulator::Remove` (src/accumulator.cpp:185-234). -/
def removeV (vt : VT H N X) (s : Acc H N X) (targets : List Nat) : Res (Bool × Acc H N X) :=
  if targets.length = 0 then .ok (true, s)
  else do
    let cs := s.numLeaves
    if !(← St.checkTargetsSanity cs targets) then return (false, s)
    else
      let swaps ← St.transform cs targets
      let (s1, dirty) ← removeRowsV vt cs (St.numRows cs) swaps s []
      cassert (dirty.length = 0)
      let next := sub64 s1.numLeaves targets.length
      let s2 ← vt.finalizeRemove s1 next
      return (true, { s2 with numLeaves := next })

end Acc

namespace Ram

/-- `RamForest::SwapSubTrees` (src/ram_forest.cpp:227-244). -/
def swapSubTreesV (s : RamForest H) (src dst : Nat) : Res (Option (RNode H) × RamForest H) := do
  let row ← St.detectRow s.numLeaves src
  let row' ← St.detectRow s.numLeaves dst
  cassert (row = row')
  let a ← St.leftDescendantV s.numLeaves src row
  let b ← St.leftDescendantV s.numLeaves dst row
  let range ← shlInt row
  let (s', p) ← swapTreeLoop s a b 66 range
  return (some { hash := none, numLeaves := s.numLeaves, pos := p }, s')

/-- `RamForest::Node::ReHash` (src/ram_forest.cpp:53-70). -/
def nodeReHashV (s : RamForest H) (d : RNode H) : Res (RamForest H) := do
  let l ← St.childV d.numLeaves d.pos 0
  let r ← St.childV d.numLeaves d.pos 1
  let lh ← read s l
  let rh ← read s r
  let h := HashOps.ph lh rh
  let row ← St.detectRow d.numLeaves d.pos
  let offset ← St.rowOffset d.numLeaves d.pos
  let rowData ← vecAt s.ext row
  let rowData' ← vecSet rowData (sub64 d.pos offset) h
  return { s with ext := s.ext.set row rowData' }

/-- The virtual functions of `RamForest` with checks. -/
def vtV : VT H (RNode H) (List (List H)) := { vt with swapSubTrees := swapSubTreesV, nodeReHash := nodeReHashV }

/-- `RamForest::Add` (src/ram_forest.cpp:323-341) with the check of `Accumulator::Add`; none of the functions
called by the latter has a check. -/
def addV (s : RamForest H) (leaves : List (Leaf H)) : Res (RamForest H) := do
  let next := wrap64 (s.numLeaves + leaves.length)
  let data ← prealloc next 0 (St.numRows next + 1) s.ext
  cassert (data.length > St.numRows next)
  let s' ← Acc.addV vt { s with ext := data } leaves
  cassert (next = s'.numLeaves)
  cassert (s'.posmap.length = s'.numLeaves)
  return s'

/-- `RamForest::Modify` (src/ram_forest.cpp:343-352). -/
def modifyV (s : RamForest H) (leaves : List (Leaf H)) (targets : List Nat) :
    Res (Bool × Option (UndoBatch H) × RamForest H) := do
  let (ok, s1) ← Acc.removeV vtV s targets
  if !ok then return (false, none, s1)
  else
    match ← buildUndoBatch s1 leaves.length targets with
    | none => return (false, none, s1)
    | some undo =>
      let s2 ← addV s1 leaves
      return (true, some undo, s2)

/-- The second check of `Undo` (src/ram_forest.cpp:468-479): every hash of the bottom row is mapped to its
index. The counter is an `int`. -/
def rowCheck (m : PosMap H) : List H → Nat → Res Bool
  | [], _ => .ok true
  | h :: hs, pos =>
    match PosMap.find m h with
    | none => .ok false
    | some p =>
      if p ≠ pos then .ok false
      else if pos + 1 ≥ 2 ^ 31 then .error .ub
      else rowCheck m hs (pos + 1)

/-- Rehashing one row in `Undo` (src/ram_forest.cpp:455-461). -/
def undoRehashRowV : List (RNode H) → RamForest H → List (RNode H) → Res (RamForest H × List (RNode H))
  | [], s, next => .ok (s, next)
  | d :: ds, s, next => do
    let s1 ← nodeReHashV s d
    match ← nodeParent s1 d with
    | none => undoRehashRowV ds s1 next
    | some p =>
      let push := match next.getLast? with
        | none => true
        | some l => l.pos ≠ p.pos
      undoRehashRowV ds s1 (if push then next ++ [p] else next)

/-- The row loop of `Undo` (src/ram_forest.cpp:451-463). -/
def undoRehashV : Nat → Nat → List (RNode H) → RamForest H → Res (RamForest H)
  | 0, _, _, s => .ok s
  | k + 1, r, dirt, s => do
    let rowData ← vecGet s.ext r
    let sz ← shr64 s.numLeaves r
    let s1 := { s with ext := s.ext.set r (vecResize rowData sz HashOps.zero) }
    let (s2, next) ← undoRehashRowV dirt s1 []
    undoRehashV k (r + 1) next s2

/-- `RamForest::Undo` (src/ram_forest.cpp:378-482). -/
def undoV (s : RamForest H) (u : UndoBatch H) : Res (Bool × RamForest H) :=
  if s.ext.length = 0 then .ok (true, s)
  else do
    let prev := sub64 (wrap64 (s.numLeaves + u.positions.length)) u.numAdds
    let swaps ← St.undoTransformV prev u.positions
    let start := sub64 s.numLeaves u.numAdds
    let (m1, ok1) ← undoErase s start (s.numLeaves - start) s.posmap
    if !ok1 then return (false, { s with posmap := m1 })
    else
      let n0 := sub64 s.numLeaves u.numAdds
      let row0 ← vecGet s.ext 0
      let row0 := vecResize row0 prev HashOps.zero
      let (row0', m2, ok2) ← undoPlace n0 u.hashes 0 row0 m1
      let s1 := { s with numLeaves := n0, posmap := m2, ext := s.ext.set 0 row0' }
      if !ok2 then return (false, s1)
      else
        let s2 := { s1 with numLeaves := prev }
        let s3 ← undoSwaps swaps.reverse s2
        let dirtSet := (List.range u.hashes.length).map (fun i => wrap64 (n0 + i))
          ++ swaps.reverse.flatMap swapDirt
        let first ← firstDirt prev (sortUniq dirtSet) []
        let dirt := first.map fun p => ({ hash := none, numLeaves := prev, pos := p } : RNode H)
        let s4 ← undoRehashV (St.numRows prev) 1 dirt s3
        let s5 ← restoreRoots s4
        let row0 ← vecGet s5.ext 0
        cassert (row0.length = s5.posmap.length)
        cassert (← rowCheck s5.posmap row0 0)
        return (true, s5)

end Ram

namespace Pol

/-- The traversal of `ReadSiblings` (src/pollard.cpp:194-213) with the checks of `Child`. -/
def readLoopV (heap : List (INode H)) (n bits : Nat) :
    Nat → Option Nat → Option Nat → Nat → List PEntry →
      Res (Option Nat × Option Nat × List PEntry)
  | 0, node, sib, _, path => .ok (node, sib, path)
  | k + 1, node, sib, pos, path => do
    let b ← shr64 bits (k : Int)
    let lr := b % 2
    let lrSib := St.sibling lr
    let path' := { node := node, sib := sib, pos := pos : PEntry } :: path
    match sib with
    | none => return (none, none, path')
    | some sp =>
      let x ← vecGet heap sp
      let pos' ← St.childV n pos lrSib
      readLoopV heap n bits k (INode.niece x lrSib) (INode.niece x lr) pos' path'

/-- `Pollard::ReadSiblings` (src/pollard.cpp:174-220). -/
def readSiblingsV (s : Pollard H) (pos : Nat) : Res (Option Nat × Option Nat × List PEntry) := do
  let (tree, len, bits) ← St.path s.numLeaves pos
  let nodePos ← vecGet (← St.rootPositions s.numLeaves) tree
  let r ← vecGet s.roots tree
  if len = 0 then return (r.e.node, r.e.node, [])
  else readLoopV s.ext s.numLeaves bits len r.e.node r.e.node nodePos []

/-- `Pollard::Read` (src/pollard.cpp:150-158). -/
def readV (s : Pollard H) (pos : Nat) : Res (Option H) := do
  let (node, _, _) ← readSiblingsV s pos
  match node with
  | none => return none
  | some p => return some (← vecGet s.ext p).hash

/-- `Pollard::ReadLeafRange` (src/pollard.cpp:160-172). -/
def readLeafRangeV (s : Pollard H) : Nat → Nat → Res (List H)
  | _, 0 => .ok []
  | pos, range + 1 => do
    let h ← readV s pos
    let hs ← readLeafRangeV s (pos + 1) range
    match h with
    | some h => return h :: hs
    | none => return hs

/-- `Pollard::SwapSubTrees` (src/pollard.cpp:222-255). -/
def swapSubTreesV (s : Pollard H) (src dst : Nat) : Res (Option PNode × Pollard H) := do
  let (nodeFrom, sibFrom0, path) ← readSiblingsV s src
  cassert nodeFrom.isSome
  let (sibFrom, heap) ← hookIn s.ext path sibFrom0 src
  let s := { s with ext := heap }
  let (nodeTo, sibTo, path, heap) ←
    if St.sibling src = dst then pure (sibFrom, nodeFrom, path, s.ext)
    else do
      let (nodeTo, sibTo0, path') ← readSiblingsV s dst
      cassert nodeTo.isSome
      let (sibTo, heap) ← hookIn s.ext path' sibTo0 dst
      pure (nodeTo, sibTo, path', heap)
  let heap ← swapContents heap nodeFrom sibFrom nodeTo sibTo
  let dirt := match path with
    | [] => none
    | e :: es => some { e := e, up := es : PNode }
  return (dirt, { s with ext := heap })

/-- Erasing the deleted leaves from the position map (src/pollard.cpp:309-313). -/
def eraseLoopV (s : Pollard H) : Nat → Nat → PosMap H → Res (PosMap H)
  | _, 0, m => .ok m
  | pos, k + 1, m => do
    match ← readV s pos with
    | some h => eraseLoopV s (pos + 1) k (PosMap.erase m h)
    | none => eraseLoopV s (pos + 1) k m

/-- Selecting the new roots (src/pollard.cpp:322-344). -/
def selectRootsV (s : Pollard H) : List Nat → List PNode → Res (Pollard H × List PNode)
  | [], acc => .ok (s, acc)
  | p :: ps, acc => do
    let (node, sib, _) ← readSiblingsV s p
    cassert node.isSome
    let x ← deref s.ext node
    let heap ← match sib with
      | some q => do
        let y ← vecGet s.ext q
        store s.ext node { x with n0 := y.n0, n1 := y.n1 }
      | none => store s.ext node { x with n0 := none, n1 := none }
    selectRootsV { s with ext := heap } ps
      ({ e := { node := node, sib := node, pos := p }, up := [] } :: acc)

/-- `Pollard::FinalizeRemove` (src/pollard.cpp:304-348). -/
def finalizeRemoveV (s : Pollard H) (next : Nat) : Res (Pollard H) := do
  let m ← eraseLoopV s next (s.numLeaves - next) s.posmap
  let s := { s with posmap := m }
  let ps ← St.rootPositionsOf s.numLeaves next
  let (s', roots) ← selectRootsV s ps.reverse []
  return { s' with roots := roots }

/-- The virtual functions of `Pollard` with checks. -/
def vtV : VT H PNode (List (INode H)) :=
  { vt with read := readV, readLeafRange := readLeafRangeV, swapSubTrees := swapSubTreesV, finalizeRemove := finalizeRemoveV }

/-- `Pollard::Modify` (src/accumulator.cpp:24-30). None of the functions called by `Accumulator::Add` has a
check. -/
def modifyV (s : Pollard H) (leaves : List (Leaf H)) (targets : List Nat) : Res (Bool × Pollard H) := do
  let (ok, s1) ← Acc.removeV vtV s targets
  if !ok then return (false, s1)
  else
    let s2 ← Acc.addV vt s1 leaves
    return (true, s2)

/-- `Pollard::InitChildrenOfComputed` (src/pollard.cpp:373-405). -/
def initChildrenV (n : Nat) (heap : List (INode H)) (id : Nat) (v : VNode) :
    Res (List (INode H) × VNode × VNode × Bool × Bool) := do
  let (heap, recL) ← hookMissing heap v.sib 0
  let (heap, recR) ← hookMissing heap v.sib 1
  let x ← deref heap v.sib
  let lpos ← St.leftChildV n v.pos
  let rpos ← St.childV n v.pos 1
  let l : VNode := {
    node := x.n0, sib := x.n1, parent := some id, pos := lpos
    valid := false, target := false, cached := !recL, sibCached := !recR }
  let r : VNode := {
    node := x.n1, sib := x.n0, parent := some id, pos := rpos
    valid := false, target := false, cached := !recR, sibCached := !recL }
  return (heap, l, r, recL, recR)

/-- The body of the loop over a row of the proof tree (src/pollard.cpp:448-532). -/
def cptNodeV (n : Nat) (c : CPT H) (next : List Nat) (id : Nat) :
    Res (Step (CPT H × List Nat)) := do
  let v ← vecGet c.arena id
  let next := if v.pos < n then id :: next else next
  let isComputed : Bool := c.compPos.head? == some v.pos
  let isProof : Bool := c.proofPos.head? == some v.pos
  cassert (!(isProof && isComputed))
  cassert (isProof || isComputed)
  if isComputed then
    let v := { v with target := true }
    let c := { c with compPos := c.compPos.tail, arena := c.arena.set id v }
    if v.pos < n then return .cont (c, next)
    else
      let (heap, l, r, recL, recR) ← initChildrenV n c.heap id v
      let li := c.arena.length
      let c := { c with
        heap := heap
        arena := c.arena ++ [l, r]
        recovery := c.recovery ++ recoveryEntry id recL recR }
      return .cont (c, li :: (li + 1) :: next)
  else
    let v := { v with target := false }
    let c := { c with proofPos := c.proofPos.tail, arena := c.arena.set id v }
    if v.cached then
      let x ← deref c.heap v.node
      match c.hashes with
      | [] => if x.hash = HashOps.zero then .error .ub else return .cont (c, next)
      | h :: hs =>
        if x.hash = h then return .cont ({ c with hashes := hs }, next)
        else return .cont (c, next)
    else
      match c.hashes with
      | [] => return .fail (c, next)
      | h :: hs =>
        let x ← deref c.heap v.node
        let heap ← store c.heap v.node { x with hash := h }
        return .cont ({ c with heap := heap, hashes := hs }, next)

/-- The loop over a row in reverse order (src/pollard.cpp:448-532). -/
def cptRowV (n : Nat) : List Nat → CPT H → List Nat → Res (Step (CPT H × List Nat))
  | [], c, next => .ok (.cont (c, next))
  | id :: ids, c, next => do
    match ← cptNodeV n c next id with
    | .fail x => return .fail x
    | .cont (c', next') => cptRowV n ids c' next'

/-- The row loop of `CreateProofTree` (src/pollard.cpp:427-536). -/
def cptRowsV (n : Nat) : Nat → CPT H → List Nat → Res (Step (CPT H × List Nat))
  | 0, c, tree => .ok (.cont (c, tree))
  | k + 1, c, tree => do
    let (c, tree) ← attachRoot n k c tree
    match ← cptRowV n tree.reverse c [] with
    | .fail x => return .fail x
    | .cont (c', tree') => cptRowsV n k c' tree'

/-- `Pollard::CreateProofTree` (src/pollard.cpp:407-541). -/
def createProofTreeV (s : Pollard H) (proof : BatchProof H) :
    Res (Bool × CPT H × List Nat) := do
  let n := s.numLeaves
  let (pp, cp) ← St.proofPositions n proof.sorted
  let c : CPT H := {
    heap := s.ext, roots := s.roots, arena := [], recovery := []
    hashes := proof.hashes.reverse, proofPos := pp.reverse, compPos := cp.reverse }
  match ← cptRowsV n (St.numRows n + 1) c [] with
  | .fail (c', _) => return (false, c', [])
  | .cont (c', tree) => return (c'.hashes.isEmpty, c', tree)

/-- The check of a cached target in `VerifyProofTree` (src/pollard.cpp:592-594), evaluated at the beginning
of the loop body for the node with arena index `id`; true if the check is not reached. `m` is the position
map. -/
def targetCheck (n : Nat) (m : PosMap H) (t : VPT H) (id : Nat) : Res Bool := do
  let v ← vecGet t.arena id
  if !v.target then return true
  else if v.pos < n then
    match t.targets with
    | [] => return true
    | th :: _ =>
      if !v.cached then return true
      else
        let x ← deref t.heap v.node
        if x.hash ≠ th then return true
        else
          let rp ← St.rootPosition n 0
          return v.pos == rp || x.n0 == some remember || (PosMap.find m th).isSome
  else return true

/-- The loop over a row (src/pollard.cpp:555-628). -/
def vptRowV (n : Nat) (m : PosMap H) : List Nat → VPT H → List Nat → Res (Step (VPT H × List Nat))
  | [], t, next => .ok (.cont (t, next))
  | id :: ids, t, next => do
    cassert (← targetCheck n m t id)
    match ← vptNode n t next id with
    | .fail x => return .fail x
    | .cont (t', next') => vptRowV n m ids t' next'

/-- The while loop of `VerifyProofTree` (src/pollard.cpp:551-631). -/
def vptRowsV (n : Nat) (m : PosMap H) : Nat → VPT H → List Nat → Res (Bool × VPT H)
  | 0, _, _ => .error .ub
  | fuel + 1, t, tree =>
    if tree.isEmpty then .ok (true, t)
    else do
      match ← vptRowV n m tree t [] with
      | .fail (t', _) => return (false, t')
      | .cont (t', tree') => vptRowsV n m fuel t' tree'

/-- `Pollard::VerifyProofTree` (src/pollard.cpp:544-638). -/
def verifyProofTreeV (n : Nat) (m : PosMap H) (t : VPT H) (tree : List Nat) : Res (Bool × VPT H) := do
  let (ok, t') ← vptRowsV n m 67 t tree
  return (ok && t'.targets.isEmpty, t')

/-- `Pollard::Verify` (src/pollard.cpp:640-716). -/
def verifyV (s : Pollard H) (proof : BatchProof H) (hashes : List H) : Res (Bool × Pollard H) :=
  if hashes.length ≠ proof.targets.length then .ok (false, s)
  else do
    if !(← checkSanity proof s.numLeaves) then return (false, s)
    else if proof.targets.length = 0 then return (true, s)
    else
      let (createOk, c, tree) ← createProofTreeV s proof
      let (ok, t) ← if createOk then
          verifyProofTreeV s.numLeaves s.posmap { heap := c.heap, arena := c.arena, targets := hashes } tree
        else pure (false, { heap := c.heap, arena := c.arena, targets := hashes })
      let s' := { s with roots := c.roots }
      if !ok then
        let heap ← recover t.arena c.recovery t.heap
        return (false, { s' with ext := heap })
      else
        let m ← rememberTargets hashes proof.sorted s.posmap
        return (true, { s' with ext := t.heap, posmap := m })

end Pol
end Utreexo
