import Verif.Spec.Memo
import Verif.Spec.Forest

/-!
# The hashes that a pollard needs for the leaves it remembers

Written down from the lists of leaves alone, without the pollard's objects.
-/

namespace Utreexo.Spec

variable {H : Type} [DecidableEq H]

/-- A remembered leaf lies below node `i` of row `r` of the forest with leaves `L`. -/
def Memo.below (m : Memo H) (L : List H) (r i : Nat) : Bool := L.zipIdx.any fun e => m.held e.1 && e.2 / 2 ^ r == i

/-- A pollard needs the roots, and in the rows above the leaves the nodes whose sibling is above a remembered leaf: such a node is in
the proof of that leaf. In the bottom row it has the leaves that the memo calls seen. -/
def Memo.keeps (m : Memo H) (L : List H) (r i : Nat) : Bool :=
  if L.length < (i / 2 + 1) * 2 ^ (r + 1) then true
  else if r = 0 then (L[i]?).elim false m.seen
  else m.below L r (i ^^^ 1)

end Utreexo.Spec
