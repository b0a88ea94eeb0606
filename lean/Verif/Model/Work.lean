import Verif.Model.RamForest
import Verif.Model.Pollard

/-!
# Counting the calls of the virtual functions

`Accumulator::Add` and `Accumulator::Remove` (src/accumulator.cpp:135-234) do their work through virtual functions. Here the same
functions of `Verif/Model/Accumulator.lean` are run with virtual functions that count how often they are called. `Add` computes one
parent hash for each call of `MergeRoot` (src/accumulator.cpp:157), and `ReHash` computes one (src/ram_forest.cpp:63) or, in a
pollard, at most one (src/pollard.cpp:726-734).
-/

namespace Utreexo

/-- Number of calls of `NewLeaf`, `MergeRoot`, `SwapSubTrees` (include/accumulator.h:96-119) and `Node::ReHash` (src/node.h:11-43). -/
structure Work where
  leaves : Nat := 0
  merges : Nat := 0
  swaps : Nat := 0
  rehashes : Nat := 0
  deriving DecidableEq, Repr

/-- Number of parent hashes computed at most: one in each call of `MergeRoot` and `ReHash`. -/
def Work.hashes (w : Work) : Nat := w.merges + w.rehashes

namespace Acc
variable {H N X : Type} [DecidableEq H] [HashOps H]

/-- An accumulator without its counters. -/
def plain (s : Acc H N (X × Work)) : Acc H N X :=
  { numLeaves := s.numLeaves, roots := s.roots, posmap := s.posmap, ext := s.ext.1 }

/-- An accumulator with counters. -/
def withWork (s : Acc H N X) (w : Work) : Acc H N (X × Work) :=
  { numLeaves := s.numLeaves, roots := s.roots, posmap := s.posmap, ext := (s.ext, w) }

/-- The virtual functions of an accumulator, each of which also counts its call. -/
def counted (vt : VT H N X) : VT H N (X × Work) where
  read := fun s p => vt.read s.plain p
  readLeafRange := fun s p k => vt.readLeafRange s.plain p k
  swapSubTrees := fun s a b => do
    let (d, t) ← vt.swapSubTrees s.plain a b
    return (d, t.withWork { s.ext.2 with swaps := s.ext.2.swaps + 1 })
  mergeRoot := fun s p h => do
    let (d, t) ← vt.mergeRoot s.plain p h
    return (d, t.withWork { s.ext.2 with merges := s.ext.2.merges + 1 })
  newLeaf := fun s l => do
    let (d, t) ← vt.newLeaf s.plain l
    return (d, t.withWork { s.ext.2 with leaves := s.ext.2.leaves + 1 })
  finalizeRemove := fun s k => do
    let t ← vt.finalizeRemove s.plain k
    return t.withWork s.ext.2
  nodeHash := fun s d => vt.nodeHash s.plain d
  nodePos := vt.nodePos
  nodeSetPos := vt.nodeSetPos
  nodeReHash := fun s d => do
    let t ← vt.nodeReHash s.plain d
    return t.withWork { s.ext.2 with rehashes := s.ext.2.rehashes + 1 }
  nodeParent := fun s d => vt.nodeParent s.plain d

end Acc

variable {H : Type} [DecidableEq H] [HashOps H]

/-- `RamForest::Add` (src/ram_forest.cpp:323-341) with counters. -/
def Ram.addC (s : Acc H (RNode H) (List (List H) × Work)) (leaves : List (Leaf H)) :
    Res (Acc H (RNode H) (List (List H) × Work)) := do
  let next := wrap64 (s.numLeaves + leaves.length)
  let data ← prealloc next 0 (St.numRows next + 1) s.ext.1
  cassert (data.length > St.numRows next)
  let s' ← Acc.add (Acc.counted vt) { s with ext := (data, s.ext.2) } leaves
  cassert (next = s'.numLeaves)
  cassert (s'.posmap.length = s'.numLeaves)
  return s'

/-- `RamForest::Modify` (src/ram_forest.cpp:343-352) with counters. -/
def Ram.modifyC (s : Acc H (RNode H) (List (List H) × Work)) (leaves : List (Leaf H)) (targets : List Nat) :
    Res (Bool × Option (UndoBatch H) × Acc H (RNode H) (List (List H) × Work)) := do
  let (ok, s1) ← Acc.remove (Acc.counted vt) s targets
  if !ok then return (false, none, s1)
  else
    match ← buildUndoBatch s1.plain leaves.length targets with
    | none => return (false, none, s1)
    | some undo =>
      let s2 ← addC s1 leaves
      return (true, some undo, s2)

/-- `Pollard::Modify` with counters. -/
def Pol.modifyC (s : Acc H PNode (List (INode H) × Work)) (leaves : List (Leaf H)) (targets : List Nat) :
    Res (Bool × Acc H PNode (List (INode H) × Work)) :=
  Acc.modify (Acc.counted vt) (Acc.add (Acc.counted vt)) s leaves targets

/-! ## Verification

The functions of `VerifyProofTree` again, each with the number of calls of `ParentHash` (src/pollard.cpp:745, 760). -/

namespace Pol

/-- `childrenHash` with the number of parent hashes computed (src/pollard.cpp:737-762). -/
def childrenHashC (heap : List (INode H)) (v : VNode) : Res (Option H × Nat) := do
  let x ← deref heap v.sib
  match x.n0, x.n1 with
  | some l, some r => do
    let lx ← vecGet heap l
    let rx ← vecGet heap r
    return (some (HashOps.ph lx.hash rx.hash), 1)
  | _, _ => return (none, 0)

/-- `vptNode` with the number of parent hashes computed (src/pollard.cpp:555-628). -/
def vptNodeC (n : Nat) (t : VPT H) (next : List Nat) (id : Nat) : Res (Step (VPT H × List Nat) × Nat) := do
  let v ← vecGet t.arena id
  if !v.target then return (.cont (t, next), 0)
  else
    let t := if v.valid then { t with arena := markValid t.arena v.parent } else t
    let next := pushParent next v.parent
    if v.pos < n then
      match t.targets with
      | [] => return (.fail (t, next), 0)
      | th :: ths =>
        let x ← deref t.heap v.node
        if v.cached && x.hash ≠ th then return (.fail (t, next), 0)
        else
          let heap ← if v.cached then pure t.heap else store t.heap v.node { x with hash := th }
          let arena := if v.cached && v.sibCached then markValid t.arena v.parent else t.arena
          let y ← deref heap v.sib
          let heap ← store heap v.sib { y with n0 := some remember }
          return (.cont ({ heap := heap, arena := arena, targets := ths }, next), 0)
    else if !v.valid && v.cached then
      let (h, k) ← childrenHashC t.heap v
      match h with
      | none => return (.fail (t, next), k)
      | some ch =>
        let x ← deref t.heap v.node
        if ch ≠ x.hash then return (.fail (t, next), k)
        else
          let arena := if v.sibCached then markValid t.arena v.parent else t.arena
          return (.cont ({ t with arena := arena }, next), k)
    else if v.valid && v.cached then return (.cont (t, next), 0)
    else
      let (h, k) ← childrenHashC t.heap v
      let heap ← match h with
        | none => pure t.heap
        | some ch => do
          let x ← deref t.heap v.node
          store t.heap v.node { x with hash := ch }
      cassert v.parent.isSome
      return (.cont ({ t with heap := heap }, next), k)

/-- `vptRow` with the number of parent hashes (src/pollard.cpp:555-628). -/
def vptRowC (n : Nat) : List Nat → VPT H → List Nat → Res (Step (VPT H × List Nat) × Nat)
  | [], t, next => .ok (.cont (t, next), 0)
  | id :: ids, t, next => do
    let (o, k) ← vptNodeC n t next id
    match o with
    | .fail x => return (.fail x, k)
    | .cont (t', next') =>
      let (o', k') ← vptRowC n ids t' next'
      return (o', k + k')

/-- `vptRows` with the number of parent hashes (src/pollard.cpp:551-631). -/
def vptRowsC (n : Nat) : Nat → VPT H → List Nat → Res ((Bool × VPT H) × Nat)
  | 0, _, _ => .error .ub
  | fuel + 1, t, tree =>
    if tree.isEmpty then .ok ((true, t), 0)
    else do
      let (o, k) ← vptRowC n tree t []
      match o with
      | .fail (t', _) => return ((false, t'), k)
      | .cont (t', tree') =>
        let (r, k') ← vptRowsC n fuel t' tree'
        return (r, k + k')

/-- `VerifyProofTree` with the number of parent hashes (src/pollard.cpp:544-638). -/
def verifyProofTreeC (n : Nat) (t : VPT H) (tree : List Nat) : Res ((Bool × VPT H) × Nat) := do
  let ((ok, t'), k) ← vptRowsC n 67 t tree
  return ((ok && t'.targets.isEmpty, t'), k)

/-- `Verify` with the number of parent hashes (src/pollard.cpp:640-716); `CreateProofTree` computes none. -/
def verifyC (s : Pollard H) (proof : BatchProof H) (hashes : List H) : Res ((Bool × Pollard H) × Nat) :=
  if hashes.length ≠ proof.targets.length then .ok ((false, s), 0)
  else do
    if !(← checkSanity proof s.numLeaves) then return ((false, s), 0)
    else if proof.targets.length = 0 then return ((true, s), 0)
    else
      let (createOk, c, tree) ← createProofTree s proof
      let ((ok, t), k) ← if createOk then
          verifyProofTreeC s.numLeaves { heap := c.heap, arena := c.arena, targets := hashes } tree
        else pure ((false, { heap := c.heap, arena := c.arena, targets := hashes }), 0)
      let s' := { s with roots := c.roots }
      if !ok then
        let heap ← recover t.arena c.recovery t.heap
        return ((false, { s' with ext := heap }), k)
      else
        let m ← rememberTargets hashes proof.sorted s.posmap
        return ((true, { s' with ext := t.heap, posmap := m }), k)

end Pol

end Utreexo
