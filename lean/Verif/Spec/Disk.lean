import Verif.Spec.Bytes

/-!
# Specification: where a forest file keeps the nodes

The file starts with the number of leaves in eight bytes, most significant first. Then follow, row by row from the
leaves up, the hashes of the nodes below perfect trees, 32 bytes each.
-/

namespace Utreexo
namespace Spec

/-- The number of nodes on the rows below row `r` of a forest with `n` leaves. -/
def nodesBelow (n r : Nat) : Nat := ((List.range r).map fun q => n / 2 ^ q).sum

/-- The size of a file with `n < 2^64` leaves. -/
def diskSize (n : Nat) : Nat := 8 + 32 * nodesBelow n 64

/-- The hash stored for node `x` of row `r`. -/
def stored (file : List Byte) (n r x : Nat) : List Byte := (file.drop (8 + 32 * (nodesBelow n r + x))).take 32

end Spec
end Utreexo
