import Verif.Spec.Forest

/-!
# Specification: Merkle hashes of a forest

Independent of the model: `ph` is the parent hash, `f i` the hash of leaf `i`.
-/

namespace Utreexo
namespace Spec

/-- Merkle hash of the node with index `i` on row `r`. -/
def merkle {H : Type} (ph : H → H → H) (f : Nat → H) : Nat → Nat → H
  | 0, i => f i
  | r + 1, i => ph (merkle ph f r (2 * i)) (merkle ph f r (2 * i + 1))

/-- The roots of a forest with `n < 2^64` leaves, tallest tree first. -/
def merkleRoots {H : Type} (ph : H → H → H) (f : Nat → H) (n : Nat) : List H :=
  (treeRows n 64).map fun t => merkle ph f t (rootIdx n t)

/-- The leaf function of a list of leaves (`d` outside of the list). -/
def leafFn {H : Type} (d : H) (L : List H) : Nat → H := fun i => L.getD i d

/-- The leaves that are not targets, in order. -/
def survivors {H : Type} (L : List H) (targets : List Nat) : List H :=
  (L.zipIdx.filter fun p => !targets.contains p.2).map Prod.fst

/-- A batch modification of a list of leaves: the targets go away, the order of the others is not
specified, the new leaves are appended. -/
def Modified {H : Type} (L : List H) (adds : List H) (targets : List Nat) (L' : List H) : Prop :=
  ∃ K, K.Perm (survivors L targets) ∧ L' = K ++ adds

/-- The node with index `k` on row `r` belongs to the proof of the targets: its sibling lies above
a target, has a parent in the forest, and the node itself does not lie above a target. -/
def ProofNode (n : Nat) (targets : List Nat) (r k : Nat) : Prop :=
  ∃ j b, b < 2 ∧ k = 2 * j + (1 - b) ∧ InForest n (r + 1) j ∧
    (∃ a ∈ targets, a / 2 ^ r = 2 * j + b) ∧ ∀ a ∈ targets, a / 2 ^ r ≠ k

end Spec
end Utreexo
