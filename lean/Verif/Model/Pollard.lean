import Verif.Model.RamForest

/-!
# Model of `Pollard` (include/pollard.h, src/pollard.cpp)

`Pollard::InternalNode` objects live in a heap (`heap : List (INode H)`), a pointer is an index
into it and `nullptr` is `none`. Objects are never freed in the model: the C++ frees an object when
its last `shared_ptr` disappears, which no modelled operation can observe except
`m_remember.use_count()`, modelled by counting the references reachable from the roots.
-/

namespace Utreexo

/-- `Pollard::InternalNode` (src/pollard.cpp:22-61): a hash and two niece pointers. -/
structure INode (H : Type) where
  hash : H
  n0 : Option Nat
  n1 : Option Nat
  deriving DecidableEq, Repr

/-- The members of `Pollard::Node` used outside of verification (src/pollard.cpp:63-120), without
its parent. -/
structure PEntry where
  node : Option Nat
  sib : Option Nat
  pos : Nat
  deriving DecidableEq, Repr

/-- A `Pollard::Node` with its chain of parents (`m_parent`, src/node.h). -/
structure PNode where
  e : PEntry
  up : List PEntry
  deriving DecidableEq, Repr

/-- A `Pollard`: base class state plus the heap. -/
abbrev Pollard (H : Type) := Acc H PNode (List (INode H))

namespace Pol
variable {H : Type} [DecidableEq H] [HashOps H]

/-- The object `m_remember` points to is allocated first (src/pollard.cpp:125). -/
def remember : Nat := 0

/-- Dereferencing a pointer; null is undefined behaviour. -/
def deref (heap : List (INode H)) (p : Option Nat) : Res (INode H) :=
  match p with
  | some i => vecGet heap i
  | none => .error .ub

/-- Storing an object through a pointer. -/
def store (heap : List (INode H)) (p : Option Nat) (x : INode H) : Res (List (INode H)) :=
  match p with
  | some i => vecSet heap i x
  | none => .error .ub

/-- `node.m_nieces[i]` for `i ∈ {0, 1}`. -/
def INode.niece (x : INode H) (i : Nat) : Option Nat := if i = 0 then x.n0 else x.n1

/-- `node.m_nieces[i] = p`. -/
def INode.setNiece (x : INode H) (i : Nat) (p : Option Nat) : INode H :=
  if i = 0 then { x with n0 := p } else { x with n1 := p }

/-- `Pollard::Pollard(uint64_t)` (src/pollard.cpp:123-126). -/
def mk (numLeaves : Nat) : Pollard H :=
  { numLeaves := numLeaves, roots := [], posmap := [],
    ext := [{ hash := HashOps.zero, n0 := none, n1 := none }] }

/-- Creating the roots in the constructor below (src/pollard.cpp:138-142). -/
def mkRoots : List H → List Nat → List (INode H) → Res (List PNode × List (INode H))
  | [], _, heap => .ok ([], heap)
  | _ :: _, [], _ => .error .exc
  | h :: hs, p :: ps, heap => do
    let ptr := heap.length
    let (rest, heap') ← mkRoots hs ps (heap ++ [{ hash := h, n0 := none, n1 := none }])
    return ({ e := { node := some ptr, sib := some ptr, pos := p }, up := [] } :: rest, heap')

/-- `Pollard::Pollard(const std::vector<Hash>&, uint64_t)` (src/pollard.cpp:128-143). -/
def fromRoots (roots : List H) (numLeaves : Nat) : Res (Pollard H) := do
  let s : Pollard H := mk numLeaves
  cassert (roots.length = St.numRoots numLeaves)
  let ps ← St.rootPositions numLeaves
  cassert (ps.length = roots.length)
  let (rs, heap) ← mkRoots roots ps s.ext
  return { s with roots := rs, ext := heap }

/-- The traversal of `ReadSiblings` (src/pollard.cpp:194-213), `k` remaining steps. `path` is the
chain `rehash_path`. -/
def readLoop (heap : List (INode H)) (n bits : Nat) :
    Nat → Option Nat → Option Nat → Nat → List PEntry →
      Res (Option Nat × Option Nat × List PEntry)
  | 0, node, sib, _, path => .ok (node, sib, path)
  | k + 1, node, sib, pos, path => do
    let b ← shr64 bits (k : Int)
    let lr := b % 2
    let lrSib := St.sibling lr
    let path' := { node := node, sib := sib, pos := pos : PEntry } :: path
    match sib with
    | none => return (none, none, path')
    | some sp =>
      let x ← vecGet heap sp
      let pos' ← St.child n pos lrSib
      readLoop heap n bits k (INode.niece x lrSib) (INode.niece x lr) pos' path'

/-- `Pollard::ReadSiblings` (src/pollard.cpp:174-220), always with the recorded path. -/
def readSiblings (s : Pollard H) (pos : Nat) : Res (Option Nat × Option Nat × List PEntry) := do
  let (tree, len, bits) ← St.path s.numLeaves pos
  let nodePos ← vecGet (← St.rootPositions s.numLeaves) tree
  let r ← vecGet s.roots tree
  if len = 0 then return (r.e.node, r.e.node, [])
  else readLoop s.ext s.numLeaves bits len r.e.node r.e.node nodePos []

/-- `Pollard::Read` (src/pollard.cpp:150-158). -/
def read (s : Pollard H) (pos : Nat) : Res (Option H) := do
  let (node, _, _) ← readSiblings s pos
  match node with
  | none => return none
  | some p => return some (← vecGet s.ext p).hash

/-- `Pollard::ReadLeafRange` (src/pollard.cpp:160-172). -/
def readLeafRange (s : Pollard H) : Nat → Nat → Res (List H)
  | _, 0 => .ok []
  | pos, range + 1 => do
    let h ← read s pos
    let hs ← readLeafRange s (pos + 1) range
    match h with
    | some h => return h :: hs
    | none => return hs

/-- The lambda `hook_in_sibling` (src/pollard.cpp:228-235). -/
def hookIn (heap : List (INode H)) (path : List PEntry) (sib : Option Nat) (pos : Nat) :
    Res (Option Nat × List (INode H)) :=
  match sib with
  | some p => .ok (some p, heap)
  | none =>
    match path with
    | [] => .error .ub
    | e :: _ => do
      let new := heap.length
      let heap1 := heap ++ [{ hash := HashOps.zero, n0 := none, n1 := none }]
      let x ← deref heap1 e.sib
      let heap2 ← store heap1 e.sib (INode.setNiece x (St.sibling (pos % 2)) (some new))
      return (some new, heap2)

/-- The two `std::swap`s at the end of `SwapSubTrees` (src/pollard.cpp:251-252). -/
def swapContents (heap : List (INode H)) (nodeFrom sibFrom nodeTo sibTo : Option Nat) :
    Res (List (INode H)) := do
  let nt ← deref heap nodeTo
  let nf ← deref heap nodeFrom
  let heap ← store heap nodeTo { nt with hash := nf.hash }
  let nf' ← deref heap nodeFrom
  let heap ← store heap nodeFrom { nf' with hash := nt.hash }
  let st ← deref heap sibTo
  let sf ← deref heap sibFrom
  let heap ← store heap sibTo { st with n0 := sf.n0, n1 := sf.n1 }
  let sf' ← deref heap sibFrom
  store heap sibFrom { sf' with n0 := st.n0, n1 := st.n1 }

/-- `Pollard::SwapSubTrees` (src/pollard.cpp:222-255). -/
def swapSubTrees (s : Pollard H) (src dst : Nat) : Res (Option PNode × Pollard H) := do
  let (nodeFrom, sibFrom0, path) ← readSiblings s src
  let (sibFrom, heap) ← hookIn s.ext path sibFrom0 src
  let s := { s with ext := heap }
  let (nodeTo, sibTo, path, heap) ←
    if St.sibling src = dst then pure (sibFrom, nodeFrom, path, s.ext)
    else do
      let (nodeTo, sibTo0, path') ← readSiblings s dst
      let (sibTo, heap) ← hookIn s.ext path' sibTo0 dst
      pure (nodeTo, sibTo, path', heap)
  let heap ← swapContents heap nodeFrom sibFrom nodeTo sibTo
  let dirt := match path with
    | [] => none
    | e :: es => some { e := e, up := es : PNode }
  return (dirt, { s with ext := heap })

/-- `Pollard::NewLeaf` (src/pollard.cpp:257-275). -/
def newLeaf (s : Pollard H) (leaf : Leaf H) : Res (PNode × Pollard H) :=
  let ptr := s.ext.length
  let x : INode H := { hash := leaf.1, n0 := if leaf.2 then some remember else none, n1 := none }
  let node : PNode := { e := { node := some ptr, sib := some ptr, pos := s.numLeaves }, up := [] }
  .ok (node, { s with
    ext := s.ext ++ [x]
    roots := s.roots ++ [node]
    posmap := if leaf.2 then PosMap.insert s.posmap leaf.1 s.numLeaves else s.posmap })

/-- `InternalNode::DeadEnd` (src/pollard.cpp:793-796). -/
def deadEnd (heap : List (INode H)) (p : Nat) : Res Bool := do
  let x ← vecGet heap p
  return x.n0.isNone && x.n1.isNone

/-- One half of `InternalNode::Prune`: whether niece `p` is dropped. -/
def pruned (heap : List (INode H)) (p : Option Nat) : Res (Option Nat) :=
  match p with
  | none => .ok none
  | some q => do if ← deadEnd heap q then return none else return some q

/-- `InternalNode::Prune` (src/pollard.cpp:782-791). -/
def prune (heap : List (INode H)) (p : Option Nat) : Res (List (INode H)) := do
  let x ← deref heap p
  let n0 ← pruned heap x.n0
  let heap ← store heap p { x with n0 := n0 }
  let n1 ← pruned heap x.n1
  store heap p { x with n0 := n0, n1 := n1 }

/-- `Pollard::MergeRoot` (src/pollard.cpp:277-302). -/
def mergeRoot (s : Pollard H) (parentPos : Nat) (parentHash : H) : Res (PNode × Pollard H) :=
  match s.roots.reverse with
  | r :: l :: restRev => do
    let rp := r.e.node
    let lp := l.e.node
    let lx ← deref s.ext lp
    let rx ← deref s.ext rp
    let heap ← store s.ext lp { lx with n0 := rx.n0, n1 := rx.n1 }
    let rx' ← deref heap rp
    let heap ← store heap rp { rx' with n0 := lx.n0, n1 := lx.n1 }
    let ptr := heap.length
    let heap := heap ++ [{ hash := parentHash, n0 := lp, n1 := rp }]
    let lx ← deref heap lp
    let rx ← deref heap rp
    let heap ← if lx.n0 ≠ some remember ∧ rx.n0 ≠ some remember then prune heap (some ptr)
      else pure heap
    let node : PNode := { e := { node := some ptr, sib := some ptr, pos := parentPos }, up := [] }
    return (node, { s with ext := heap, roots := restRev.reverse ++ [node] })
  | _ => .error .ub

/-- Erasing the deleted leaves from the position map (src/pollard.cpp:309-313). -/
def eraseLoop (s : Pollard H) : Nat → Nat → PosMap H → Res (PosMap H)
  | _, 0, m => .ok m
  | pos, k + 1, m => do
    match ← read s pos with
    | some h => eraseLoop s (pos + 1) k (PosMap.erase m h)
    | none => eraseLoop s (pos + 1) k m

/-- Selecting the new roots (src/pollard.cpp:322-344), smallest tree first: `ps` are the remaining
positions in reverse order, `acc` the roots selected so far. -/
def selectRoots (s : Pollard H) : List Nat → List PNode → Res (Pollard H × List PNode)
  | [], acc => .ok (s, acc)
  | p :: ps, acc => do
    let (node, sib, _) ← readSiblings s p
    let x ← deref s.ext node
    let heap ← match sib with
      | some q => do
        let y ← vecGet s.ext q
        store s.ext node { x with n0 := y.n0, n1 := y.n1 }
      | none => store s.ext node { x with n0 := none, n1 := none }
    selectRoots { s with ext := heap } ps
      ({ e := { node := node, sib := node, pos := p }, up := [] } :: acc)

/-- `Pollard::FinalizeRemove` (src/pollard.cpp:304-348). -/
def finalizeRemove (s : Pollard H) (next : Nat) : Res (Pollard H) := do
  let m ← eraseLoop s next (s.numLeaves - next) s.posmap
  let s := { s with posmap := m }
  let ps ← St.rootPositionsOf s.numLeaves next
  let (s', roots) ← selectRoots s ps.reverse []
  return { s' with roots := roots }

/-- `Pollard::Node::GetHash` (src/pollard.cpp:720-723). -/
def nodeHash (s : Pollard H) (d : PNode) : Res H := do
  return (← deref s.ext d.e.node).hash

/-- `Pollard::Node::ReHash` (src/pollard.cpp:725-735). -/
def nodeReHash (s : Pollard H) (d : PNode) : Res (Pollard H) := do
  let x ← deref s.ext d.e.sib
  match x.n0, x.n1 with
  | some l, some r => do
    let lx ← vecGet s.ext l
    let rx ← vecGet s.ext r
    let y ← deref s.ext d.e.node
    let heap ← store s.ext d.e.node { y with hash := HashOps.ph lx.hash rx.hash }
    let heap ← prune heap d.e.sib
    return { s with ext := heap }
  | _, _ => return s

/-- `Accumulator::Node::Parent` (src/node.h:42): the recorded parent. -/
def nodeParent (_s : Pollard H) (d : PNode) : Res (Option PNode) :=
  match d.up with
  | [] => .ok none
  | e :: es => .ok (some { e := e, up := es })

/-- The virtual functions of `Pollard`. -/
def vt : VT H PNode (List (INode H)) where
  read := read
  readLeafRange := readLeafRange
  swapSubTrees := swapSubTrees
  mergeRoot := mergeRoot
  newLeaf := newLeaf
  finalizeRemove := finalizeRemove
  nodeHash := nodeHash
  nodePos := fun d => d.e.pos
  nodeSetPos := fun d p => { d with e := { d.e with pos := p } }
  nodeReHash := nodeReHash
  nodeParent := nodeParent

/-- `Pollard::Modify` = `Accumulator::Modify` with `Accumulator::Add`. -/
def modify (s : Pollard H) (leaves : List (Leaf H)) (targets : List Nat) :
    Res (Bool × Pollard H) := Acc.modify vt (Acc.add vt) s leaves targets

/-- Chopping all roots (src/pollard.cpp:352-354). -/
def chopRoots : List PNode → List (INode H) → Res (List (INode H))
  | [], heap => .ok heap
  | r :: rs, heap => do
    let x ← deref heap r.e.node
    let heap ← store heap r.e.node { x with n0 := none, n1 := none }
    chopRoots rs heap

/-- Number of references to `m_remember` below a pointer; the fuel bounds the depth (the objects
below a root are at most 64 rows deep). -/
def countRemember (heap : List (INode H)) : Nat → Option Nat → Nat
  | 0, _ => 0
  | _ + 1, none => 0
  | fuel + 1, some p =>
    if p = remember then 1
    else match heap[p]? with
      | none => 0
      | some x => countRemember heap fuel x.n0 + countRemember heap fuel x.n1

/-- `Pollard::NumCachedLeaves` (include/pollard.h): `m_remember.use_count() - 1`. -/
def numCachedLeaves (s : Pollard H) : Nat :=
  (s.roots.map fun r => countRemember s.ext (s.ext.length + 66) r.e.node).sum

/-- `Pollard::CountNodes(node)` (src/pollard.cpp:358-362). -/
def countBelow (heap : List (INode H)) : Nat → Option Nat → Nat
  | 0, _ => 0
  | _ + 1, none => 0
  | fuel + 1, some p =>
    if p = remember then 0
    else match heap[p]? with
      | none => 0
      | some x => 1 + countBelow heap fuel x.n0 + countBelow heap fuel x.n1

/-- `Pollard::CountNodes()` (src/pollard.cpp:364-371). -/
def countNodes (s : Pollard H) : Nat :=
  (s.roots.map fun r => countBelow s.ext (s.ext.length + 66) r.e.node).sum

/-- `Pollard::Prune` (src/pollard.cpp:350-356). -/
def pruneAll (s : Pollard H) : Res (Pollard H) := do
  let heap ← chopRoots s.roots s.ext
  let s' := { s with ext := heap }
  cassert (numCachedLeaves s' = 0)
  return s'

/-! ## Verification -/

/-- A `Pollard::Node` during verification (src/pollard.cpp:63-120): the flags `VALID`, `TARGET`,
`CACHED`, `SIBLING_CACHED` are separate booleans, the parent is an index into the list of the
nodes created so far. -/
structure VNode where
  node : Option Nat
  sib : Option Nat
  parent : Option Nat
  pos : Nat
  valid : Bool
  target : Bool
  cached : Bool
  sibCached : Bool
  deriving DecidableEq, Repr

/-- The `RECOVERY_CHOP_*` constants (src/pollard.cpp:18-20). -/
inductive Chop where
  | left | right | both
  deriving DecidableEq, Repr

/-- The local state of `CreateProofTree`. `hashes`, `proofPos` and `compPos` are what the three
reverse iterators still have to visit; `arena` holds the `Pollard::Node` objects. -/
structure CPT (H : Type) where
  heap : List (INode H)
  roots : List PNode
  arena : List VNode
  recovery : List (Nat × Chop)
  hashes : List H
  proofPos : List Nat
  compPos : List Nat

/-- Hooking in a missing child (src/pollard.cpp:382-386 and 388-392): niece `b` of the sibling is
created unless it exists; the flag says whether it was created. -/
def hookMissing (heap : List (INode H)) (sib : Option Nat) (b : Nat) :
    Res (List (INode H) × Bool) := do
  let x ← deref heap sib
  match INode.niece x b with
  | some _ => return (heap, false)
  | none =>
    let new := heap.length
    let heap := heap ++ [{ hash := HashOps.zero, n0 := none, n1 := none }]
    let y ← deref heap sib
    return ((← store heap sib (INode.setNiece y b (some new))), true)

/-- `Pollard::InitChildrenOfComputed` (src/pollard.cpp:373-405): returns the heap, the two new
nodes (without parent link target) and the two recovery flags. `id` is the arena index of the
node itself. -/
def initChildren (n : Nat) (heap : List (INode H)) (id : Nat) (v : VNode) :
    Res (List (INode H) × VNode × VNode × Bool × Bool) := do
  let (heap, recL) ← hookMissing heap v.sib 0
  let (heap, recR) ← hookMissing heap v.sib 1
  let x ← deref heap v.sib
  let lpos ← St.leftChild n v.pos
  let rpos ← St.child n v.pos 1
  let l : VNode := {
    node := x.n0, sib := x.n1, parent := some id, pos := lpos
    valid := false, target := false, cached := !recL, sibCached := !recR }
  let r : VNode := {
    node := x.n1, sib := x.n0, parent := some id, pos := rpos
    valid := false, target := false, cached := !recR, sibCached := !recL }
  return (heap, l, r, recL, recR)

/-- The recovery entry of a computed node (src/pollard.cpp:485-494). -/
def recoveryEntry (id : Nat) (recL recR : Bool) : List (Nat × Chop) :=
  if recL && recR then [(id, .both)]
  else if recL then [(id, .left)]
  else if recR then [(id, .right)]
  else []

/-- Outcome of a step that may `return false` from the enclosing function. -/
inductive Step (α : Type) where
  | cont (a : α)
  | fail (a : α)

/-- The body of the loop over a row of the proof tree (src/pollard.cpp:448-532) for the node with
arena index `id`; `next` is `next_row`. -/
def cptNode (n : Nat) (c : CPT H) (next : List Nat) (id : Nat) :
    Res (Step (CPT H × List Nat)) := do
  let v ← vecGet c.arena id
  let next := if v.pos < n then id :: next else next
  let isComputed : Bool := c.compPos.head? == some v.pos
  let isProof : Bool := c.proofPos.head? == some v.pos
  cassert (!(isProof && isComputed))
  cassert (isProof || isComputed)
  if isComputed then
    let v := { v with target := true }
    let c := { c with compPos := c.compPos.tail, arena := c.arena.set id v }
    if v.pos < n then return .cont (c, next)
    else
      let (heap, l, r, recL, recR) ← initChildren n c.heap id v
      let li := c.arena.length
      let c := { c with
        heap := heap
        arena := c.arena ++ [l, r]
        recovery := c.recovery ++ recoveryEntry id recL recR }
      return .cont (c, li :: (li + 1) :: next)
  else
    let v := { v with target := false }
    let c := { c with proofPos := c.proofPos.tail, arena := c.arena.set id v }
    if v.cached then
      let x ← deref c.heap v.node
      match c.hashes with
      | [] => if x.hash = HashOps.zero then .error .ub else return .cont (c, next)
      | h :: hs =>
        if x.hash = h then return .cont ({ c with hashes := hs }, next)
        else return .cont (c, next)
    else
      match c.hashes with
      | [] => return .fail (c, next)
      | h :: hs =>
        let x ← deref c.heap v.node
        let heap ← store c.heap v.node { x with hash := h }
        return .cont ({ c with heap := heap, hashes := hs }, next)

/-- The loop over a row in reverse order (src/pollard.cpp:448-532); `ids` is the row reversed. -/
def cptRow (n : Nat) : List Nat → CPT H → List Nat → Res (Step (CPT H × List Nat))
  | [], c, next => .ok (.cont (c, next))
  | id :: ids, c, next => do
    match ← cptNode n c next id with
    | .fail x => return .fail x
    | .cont (c', next') => cptRow n ids c' next'

/-- Attaching the root of a row (src/pollard.cpp:433-441). -/
def attachRoot (n row : Nat) (c : CPT H) (tree : List Nat) : Res (CPT H × List Nat) :=
  match c.compPos with
  | [] => .ok (c, tree)
  | p :: _ => do
    if (← St.hasRoot n row) then
      let rp ← St.rootPosition n row
      if p = rp then
        let i ← St.rootIndex n p
        let r ← vecAt c.roots i
        let r' := { r with e := { r.e with pos := rp } }
        let v : VNode := {
          node := r.e.node, sib := r.e.sib, parent := none, pos := rp
          valid := false, target := false, cached := true, sibCached := true }
        return ({ c with roots := c.roots.set i r', arena := c.arena ++ [v] },
          tree ++ [c.arena.length])
      else return (c, tree)
    else return (c, tree)

/-- The row loop of `CreateProofTree` (src/pollard.cpp:427-536): rows `k - 1` down to 0. -/
def cptRows (n : Nat) : Nat → CPT H → List Nat → Res (Step (CPT H × List Nat))
  | 0, c, tree => .ok (.cont (c, tree))
  | k + 1, c, tree => do
    let (c, tree) ← attachRoot n k c tree
    match ← cptRow n tree.reverse c [] with
    | .fail x => return .fail x
    | .cont (c', tree') => cptRows n k c' tree'

/-- `Pollard::CreateProofTree` (src/pollard.cpp:407-541): the boolean result, the final local
state and the proof tree. -/
def createProofTree (s : Pollard H) (proof : BatchProof H) :
    Res (Bool × CPT H × List Nat) := do
  let n := s.numLeaves
  let (pp, cp) ← St.proofPositions n proof.sorted
  let c : CPT H := {
    heap := s.ext, roots := s.roots, arena := [], recovery := []
    hashes := proof.hashes.reverse, proofPos := pp.reverse, compPos := cp.reverse }
  match ← cptRows n (St.numRows n + 1) c [] with
  | .fail (c', _) => return (false, c', [])
  | .cont (c', tree) => return (c'.hashes.isEmpty, c', tree)

/-- The local state of `VerifyProofTree`: heap, node objects and the target hashes not yet
visited. -/
structure VPT (H : Type) where
  heap : List (INode H)
  arena : List VNode
  targets : List H

/-- `parent->MarkAsValid()` for a non-null parent. -/
def markValid (arena : List VNode) (p : Option Nat) : List VNode :=
  match p with
  | none => arena
  | some i =>
    match arena[i]? with
    | none => arena
    | some v => arena.set i { v with valid := true }

/-- Hashing the children of a node stored in its sibling (src/pollard.cpp:739-745, 750-760):
`none` when a child is missing. -/
def childrenHash (heap : List (INode H)) (v : VNode) : Res (Option H) := do
  let x ← deref heap v.sib
  match x.n0, x.n1 with
  | some l, some r => do
    let lx ← vecGet heap l
    let rx ← vecGet heap r
    return some (HashOps.ph lx.hash rx.hash)
  | _, _ => return none

/-- Scheduling the parent for the next row (src/pollard.cpp:566-575): a parent is pushed unless it
is the last one pushed. -/
def pushParent (next : List Nat) (p : Option Nat) : List Nat :=
  match p with
  | none => next
  | some p => if next.getLast? = some p then next else next ++ [p]

/-- Body of the loop over a row in `VerifyProofTree` (src/pollard.cpp:555-628) for the node with
arena index `id`. `fail` models leaving with `verification_success = false`. -/
def vptNode (n : Nat) (t : VPT H) (next : List Nat) (id : Nat) :
    Res (Step (VPT H × List Nat)) := do
  let v ← vecGet t.arena id
  if !v.target then return .cont (t, next)
  else
    let t := if v.valid then { t with arena := markValid t.arena v.parent } else t
    let next := pushParent next v.parent
    if v.pos < n then
      match t.targets with
      | [] => return .fail (t, next)
      | th :: ths =>
        let x ← deref t.heap v.node
        if v.cached && x.hash ≠ th then return .fail (t, next)
        else
          let heap ← if v.cached then pure t.heap else store t.heap v.node { x with hash := th }
          let arena := if v.cached && v.sibCached then markValid t.arena v.parent else t.arena
          let y ← deref heap v.sib
          let heap ← store heap v.sib { y with n0 := some remember }
          return .cont ({ heap := heap, arena := arena, targets := ths }, next)
    else if !v.valid && v.cached then
      match ← childrenHash t.heap v with
      | none => return .fail (t, next)
      | some ch =>
        let x ← deref t.heap v.node
        if ch ≠ x.hash then return .fail (t, next)
        else
          let arena := if v.sibCached then markValid t.arena v.parent else t.arena
          return .cont ({ t with arena := arena }, next)
    else if v.valid && v.cached then return .cont (t, next)
    else
      let heap ← match ← childrenHash t.heap v with
        | none => pure t.heap
        | some ch => do
          let x ← deref t.heap v.node
          store t.heap v.node { x with hash := ch }
      cassert v.parent.isSome
      return .cont ({ t with heap := heap }, next)

/-- The loop over a row (src/pollard.cpp:555-628). -/
def vptRow (n : Nat) : List Nat → VPT H → List Nat → Res (Step (VPT H × List Nat))
  | [], t, next => .ok (.cont (t, next))
  | id :: ids, t, next => do
    match ← vptNode n t next id with
    | .fail x => return .fail x
    | .cont (t', next') => vptRow n ids t' next'

/-- The while loop of `VerifyProofTree` (src/pollard.cpp:551-631). The fuel is the number of rows
that can occur (64 + 1); running out of it is reported as a fault. -/
def vptRows (n : Nat) : Nat → VPT H → List Nat → Res (Bool × VPT H)
  | 0, _, _ => .error .ub
  | fuel + 1, t, tree =>
    if tree.isEmpty then .ok (true, t)
    else do
      match ← vptRow n tree t [] with
      | .fail (t', _) => return (false, t')
      | .cont (t', tree') => vptRows n fuel t' tree'

/-- `Pollard::VerifyProofTree` (src/pollard.cpp:544-638). -/
def verifyProofTree (n : Nat) (t : VPT H) (tree : List Nat) : Res (Bool × VPT H) := do
  let (ok, t') ← vptRows n 67 t tree
  return (ok && t'.targets.isEmpty, t')

/-- The nodes a recovery entry cuts (src/pollard.cpp:679-691). -/
def cutNieces : Chop → INode H → INode H
  | .left, x => { x with n0 := none }
  | .right, x => { x with n1 := none }
  | .both, x => { x with n0 := none, n1 := none }

/-- The recovery loop of `Verify` (src/pollard.cpp:675-693). -/
def recover (arena : List VNode) : List (Nat × Chop) → List (INode H) → Res (List (INode H))
  | [], heap => .ok heap
  | (id, c) :: rest, heap => do
    let v ← vecGet arena id
    cassert v.sib.isSome
    let x ← deref heap v.sib
    let heap ← store heap v.sib (cutNieces c x)
    recover arena rest heap

/-- Remembering the targets (src/pollard.cpp:704-706). -/
def rememberTargets : List H → List Nat → PosMap H → Res (PosMap H)
  | [], _, m => .ok m
  | _ :: _, [], _ => .error .ub
  | h :: hs, p :: ps, m => rememberTargets hs ps (PosMap.insert m h p)

/-- `BatchProof::CheckSanity` (src/batchproof.cpp:95-106). -/
def checkSanity (proof : BatchProof H) (n : Nat) : Res Bool := do
  if !(← St.checkTargetsSanity n proof.sorted) then return false
  else
    let pp ← St.proofPositions n proof.sorted
    return decide (pp.1.length ≥ proof.hashes.length)

/-- `Pollard::Verify` (src/pollard.cpp:640-716). -/
def verify (s : Pollard H) (proof : BatchProof H) (hashes : List H) : Res (Bool × Pollard H) :=
  if hashes.length ≠ proof.targets.length then .ok (false, s)
  else do
    if !(← checkSanity proof s.numLeaves) then return (false, s)
    else if proof.targets.length = 0 then return (true, s)
    else
      let (createOk, c, tree) ← createProofTree s proof
      let (ok, t) ← if createOk then
          verifyProofTree s.numLeaves { heap := c.heap, arena := c.arena, targets := hashes } tree
        else pure (false, { heap := c.heap, arena := c.arena, targets := hashes })
      let s' := { s with roots := c.roots }
      if !ok then
        let heap ← recover t.arena c.recovery t.heap
        return (false, { s' with ext := heap })
      else
        let m ← rememberTargets hashes proof.sorted s.posmap
        return (true, { s' with ext := t.heap, posmap := m })

/-- `Pollard::Roots`. -/
def roots (s : Pollard H) : Res (List H) := Acc.rootHashes vt s

end Pol
end Utreexo
