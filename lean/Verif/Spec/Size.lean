import Verif.Spec.Merkle

/-!
# What a proof must contain

The nodes above the targets are those whose hashes change with the targets: a verifier has to compute them. A set of nodes serves as
a proof if the tops of the trees with targets can be computed from it and the targets, and if it contains none of the nodes that are to
be computed.
-/

namespace Utreexo
namespace Spec

/-- A node of the forest that is a target or lies above one. -/
def Above (n : Nat) (targets : List Nat) (r k : Nat) : Prop := InForest n r k ∧ ∃ a ∈ targets, a / 2 ^ r = k

/-- The hash of the node can be computed from those of the given nodes. -/
inductive Computable (n : Nat) (given : Nat → Nat → Prop) : Nat → Nat → Prop
  | given {r k : Nat} : given r k → Computable n given r k
  | parent {r k : Nat} : InForest n (r + 1) k → Computable n given r (2 * k) → Computable n given r (2 * k + 1) →
      Computable n given (r + 1) k

/-- The nodes `S` serve as a proof of the targets. -/
structure Serves (n : Nat) (targets : List Nat) (S : List (Nat × Nat)) : Prop where
  fair : ∀ r k, (r, k) ∈ S → ¬ Above n targets r k
  tops : ∀ r k, Above n targets r k → ¬ InForest n (r + 1) (k / 2) →
    Computable n (fun q i => (q, i) ∈ S ∨ (q = 0 ∧ i ∈ targets)) r k

end Spec
end Utreexo
