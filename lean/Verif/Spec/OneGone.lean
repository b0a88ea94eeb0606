import Mathlib.Data.List.Basic

/-!
# The leaves of a forest after one is deleted

Specification only: it does not mention positions of nodes, swaps, rows or hashes.
-/

namespace Utreexo.Spec

variable {α : Type}

/-- The leaves below the node `i` of row `r`. -/
def leavesBelow (L : List α) (r i : ℕ) : List α := (L.drop (i * 2 ^ r)).take (2 ^ r)

/-- The leaves that remain when leaf `t` is deleted and the smallest tree has `2 ^ k` leaves: the smallest tree takes the place of the subtree
of the same size with the leaf `t` (if that is not the smallest tree itself). What remains of this subtree is put at the end, the largest
part first: its half without `t`, then the half of the other half without `t`, and so on. -/
def withoutOne (L : List α) (t k : ℕ) : List α :=
  (((List.range (L.length / 2 ^ k - 1)).map (leavesBelow L k)).set (t / 2 ^ k) (leavesBelow L k (L.length / 2 ^ k - 1))).flatten ++
    ((List.range k).reverse.map fun q => leavesBelow L q (t / 2 ^ q ^^^ 1)).flatten

end Utreexo.Spec
