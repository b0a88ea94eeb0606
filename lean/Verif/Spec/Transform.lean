import Verif.Spec.Forest

/-!
# Specification: executing swaps of subtrees on a row of leaf slots

Independent of the model. The slots are numbered from 0, `f x` is what slot `x` holds.
-/

namespace Utreexo
namespace Spec

/-- Exchange the slots below node `i` of row `r` with the slots below node `j` of row `r`. -/
def swapBlocks {α : Type} (r i j : Nat) (f : Nat → α) : Nat → α := fun x =>
  if x / 2 ^ r = i then f (j * 2 ^ r + x % 2 ^ r)
  else if x / 2 ^ r = j then f (i * 2 ^ r + x % 2 ^ r)
  else f x

/-- Execute the swaps of row `r` in order. A swap is given by the positions of its two nodes in a
forest with `R` rows. -/
def execRow {α : Type} (R r : Nat) (swaps : List (Nat × Nat)) (f : Nat → α) : Nat → α :=
  swaps.foldl (fun g s => swapBlocks r (s.1 - rowStart R r) (s.2 - rowStart R r) g) f

/-- Execute the swaps row by row from row `r` up. -/
def execRows {α : Type} (R : Nat) : Nat → List (List (Nat × Nat)) → (Nat → α) → Nat → α
  | _, [], f => f
  | r, sw :: rest, f => execRows R (r + 1) rest (execRow R r sw f)

/-- Exchange the `len` slots from `a` on with the `len` slots from `b` on. -/
def swapRanges {α : Type} (a b len : Nat) (f : Nat → α) : Nat → α := fun x =>
  if a ≤ x ∧ x < a + len then f (b + (x - a))
  else if b ≤ x ∧ x < b + len then f (a + (x - b))
  else f x

/-- Execute range swaps given as (first slot, first slot, length) in order. -/
def execRanges {α : Type} (swaps : List (Nat × Nat × Nat)) (f : Nat → α) : Nat → α :=
  swaps.foldl (fun g s => swapRanges s.1 s.2.1 s.2.2 g) f

end Spec
end Utreexo
