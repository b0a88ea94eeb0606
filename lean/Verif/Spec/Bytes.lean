/-!
# Specification: byte orders

Big-endian and little-endian values of byte strings, bit length and trailing bits.
-/

namespace Utreexo
namespace Spec

/-- Value of a byte string, most significant byte first. -/
def beValue (bs : List (BitVec 8)) : Nat := bs.foldl (fun acc b => acc * 256 + b.toNat) 0

/-- Value of a byte string, least significant byte first. -/
def leValue (bs : List (BitVec 8)) : Nat := bs.foldr (fun b acc => b.toNat + 256 * acc) 0

end Spec
end Utreexo
