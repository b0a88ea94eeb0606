/-!
# Specification: reading a proof with some nodes already known

A proof lists the hashes of its nodes. A verifier that already knows some of the nodes accepts
proofs in which known nodes are left out. `Reads` says which lists of hashes are read completely
along a list of nodes: an unknown node takes the next hash, a known node takes the next hash exactly
if it is its own.
-/

namespace Utreexo
namespace Spec

variable {H : Type}

/-- The hashes `hs` are used up along the nodes; a node is given by whether it is known and by its
hash. A known node with the hash `zero` must not meet the end of the hashes. -/
def Reads (zero : H) : List (Bool × H) → List H → Prop
  | [], hs => hs = []
  | (false, h) :: q, hs => ∃ t, hs = h :: t ∧ Reads zero q t
  | (true, h) :: q, hs => (∃ t, hs = h :: t ∧ Reads zero q t) ∨ (hs.head? ≠ some h ∧ (hs = [] → h ≠ zero) ∧ Reads zero q hs)

end Spec
end Utreexo
