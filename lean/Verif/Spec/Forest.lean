/-!
# Specification: positions of a forest

Independent of the model. A forest with `n` leaves is drawn inside a perfect binary tree with `R`
rows above the leaves, `R` being the least number with `n ≤ 2^R`. The nodes of the perfect tree
are numbered row by row from the bottom, left to right. The node with index `i` on row `r` covers
the leaves `i * 2^r, ..., (i+1) * 2^r - 1`; it belongs to the forest if it only covers leaves
`< n`. The trees of the forest are the perfect trees given by the one bits of `n`, tallest first,
laid out from left to right.
-/

namespace Utreexo
namespace Spec

/-- Number of the first node on row `r`: all rows below come first, row `s` has `2^(R-s)`
nodes. -/
def rowStart (R : Nat) : Nat → Nat
  | 0 => 0
  | r + 1 => rowStart R r + 2 ^ (R - r)

/-- Number of the node with index `i` on row `r`. -/
def posOf (R r i : Nat) : Nat := rowStart R r + i

/-- `R` is the number of rows of a forest with `n` leaves. -/
def IsRows (n R : Nat) : Prop := n ≤ 2 ^ R ∧ ∀ h, n ≤ 2 ^ h → R ≤ h

/-- The node `(r, i)` belongs to the forest with `n` leaves. -/
def InForest (n r i : Nat) : Prop := (i + 1) * 2 ^ r ≤ n

/-- First leaf of the tree of height `t`: the taller trees lie to its left. -/
def treeStart (n t : Nat) : Nat := n / 2 ^ (t + 1) * 2 ^ (t + 1)

/-- Leaf `a` lies in the tree of height `t` of the forest with `n` leaves. -/
def InTree (n t a : Nat) : Prop :=
  n.testBit t = true ∧ treeStart n t ≤ a ∧ a < treeStart n t + 2 ^ t

/-- The heights `< k` of the trees of a forest, tallest first. -/
def treeRows (n : Nat) : Nat → List Nat
  | 0 => []
  | k + 1 => if n.testBit k then k :: treeRows n k else treeRows n k

/-- Index on row `t` of the top of the tree of height `t`. -/
def rootIdx (n t : Nat) : Nat := n / 2 ^ (t + 1) * 2

end Spec
end Utreexo
