import Verif.Model.Pollard

/-!
# Copies of a pollard

`Pollard` (include/pollard.h:10-63) declares a destructor and nothing else that concerns copying, so the compiler provides a
copy constructor and a copy assignment that copy `m_num_leaves`, `m_roots`, `m_posmap` (include/accumulator.h:78-89) and
`m_remember` (include/pollard.h:19) member by member; moving is copying too. `m_roots` and `m_remember` hold `shared_ptr`s, so the two pollards have the same
node objects and the same `m_remember`, but leaf counts, vectors of roots and position maps of their own.
-/

namespace Utreexo
namespace Pol

variable {H : Type} [DecidableEq H] [HashOps H]

/-- What becomes of the roots of a copy in a call of `Modify` on the other one. `Modify` makes new `Pollard::Node` objects for the roots
that change (src/pollard.cpp:263-266, 296-299, 327-329) and writes to one of the old ones only: if there is nothing to remove
(src/accumulator.cpp:187), a first new leaf that makes the forest higher finds a single old root, which is not merged and gets
a new `m_position` (src/accumulator.cpp:169-180). -/
def copyRoots (n : Nat) (leaves : List (Leaf H)) (targets : List Nat) (roots : List PNode) : List PNode :=
  if targets.length = 0 ∧ leaves.length ≠ 0 ∧ ¬ (St.numRows n = 0 ∨ St.numRows n = St.numRows (wrap64 (n + 1))) then
    match roots, St.rootPosition (wrap64 (n + 1)) (St.numRows (wrap64 (n + 1)) - 1) with
    | r0 :: rest, .ok p => { r0 with e := { r0.e with pos := p } } :: rest
    | roots, _ => roots
  else roots

/-- What a copy `q` is after a call `Modify(_, leaves, targets)` on the other copy ended in `p'`: it has its own count, roots and map,
and the nodes as they are now. -/
def copyAfterModify (leaves : List (Leaf H)) (targets : List Nat) (q p' : Pollard H) : Pollard H :=
  { q with roots := copyRoots q.numLeaves leaves targets q.roots, ext := p'.ext }

/-- What a copy `q` is after a call of `Verify` on the other copy ended in `p'`. `Verify` writes to the `Pollard::Node` objects of the
roots (src/pollard.cpp:427-540), which are shared too. -/
def copyAfterVerify (q p' : Pollard H) : Pollard H := { p' with posmap := q.posmap, numLeaves := q.numLeaves }

/-- `NumCachedLeaves()` (include/pollard.h:60) while there are references to `m_remember` that belong to other copies: their own member
and their nodes that this pollard does not reach. -/
def numCachedLeavesWith (others : Nat) (s : Pollard H) : Nat := numCachedLeaves s + others

/-- `Pollard::Prune` (src/pollard.cpp:350-356) in the same situation. -/
def pruneAllWith (others : Nat) (s : Pollard H) : Res (Pollard H) := do
  let heap ← chopRoots s.roots s.ext
  let s' := { s with ext := heap }
  cassert (numCachedLeavesWith others s' = 0)
  return s'

end Pol
end Utreexo
