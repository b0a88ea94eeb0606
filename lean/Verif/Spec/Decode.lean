import Verif.Spec.Bytes

/-!
# Specification: the two wire formats, read directly off the bytes

Numbers are big-endian words of four bytes, hashes are 32 bytes. A proof is the number of targets, the number of hashes, the targets
and the hashes. An undo batch is the number of additions, the number of deletions, the deleted positions and as many hashes.
-/

namespace Utreexo
namespace Spec

/-- The word at offset `i`. -/
def word (bs : List (BitVec 8)) (i : Nat) : Nat := beValue ((bs.drop i).take 4)

/-- `k` words from offset `i` on. -/
def words (bs : List (BitVec 8)) (i k : Nat) : List Nat := (List.range k).map fun j => word bs (i + 4 * j)

/-- `k` hashes from offset `i` on. -/
def chunks (bs : List (BitVec 8)) (i k : Nat) : List (List (BitVec 8)) := (List.range k).map fun j => (bs.drop (i + 32 * j)).take 32

/-- The length of the input is that of a proof with the numbers in its header. -/
def ProofFits (bs : List (BitVec 8)) : Prop := 8 ≤ bs.length ∧ bs.length = 8 + 4 * word bs 0 + 32 * word bs 4

/-- The length of the input is that of an undo batch with the numbers in its header. -/
def UndoFits (bs : List (BitVec 8)) : Prop := 8 ≤ bs.length ∧ bs.length = 8 + 36 * word bs 4

instance (bs : List (BitVec 8)) : Decidable (ProofFits bs) := inferInstanceAs (Decidable (_ ∧ _))
instance (bs : List (BitVec 8)) : Decidable (UndoFits bs) := inferInstanceAs (Decidable (_ ∧ _))

end Spec
end Utreexo
