import Mathlib.Data.Nat.Log
import Verif.Spec.Forest

/-!
# Specification: which numbering the shown root positions belong to

Independent of the model. The same node has different numbers in forests with different numbers of rows. The number shown for the root
of a tree is the number of that node in a perfect tree with some number of rows, the *mark* of the tree. The shown number is right
for a forest with `n` leaves if the mark is the number of rows of that forest.
-/

namespace Utreexo
namespace Spec

/-- Number of rows of a forest with `n` leaves, the least `R` with `n ≤ 2^R`. -/
def rowsOf (n : Nat) : Nat := Nat.clog 2 n

/-- For the tree of each height the number of rows of the numbering its root is shown in. -/
abbrev Marks := Nat → Nat

/-- The numbers shown for the roots of a forest with `n` leaves, tallest tree first. -/
def Marks.shown (m : Marks) (n : Nat) : List Nat := (treeRows n 64).map fun h => posOf (m h) h (rootIdx n h)

/-- All roots are shown in the numbering of a forest with `n` leaves. -/
def Marks.now (n : Nat) : Marks := fun _ => rowsOf n

/-- The marks after `k` leaves of `n` have been deleted and then `a` leaves added. The trees that end behind the surviving leaves are
new and get the final numbering, and so do all of them if the forest got more rows; only two leaves are an exception. The other trees
were last numbered by the deletion, in the numbering from before the deletion, or not at all. -/
def Marks.block (m : Marks) (n k a : Nat) : Marks := fun h =>
  if rowsOf (n - k) < rowsOf (n - k + a) ∨ n - k < (n - k + a) / 2 ^ h * 2 ^ h then
    if n - k + a = 2 then 0 else rowsOf (n - k + a)
  else if 0 < k then rowsOf n else m h

/-- The marks after an accepted proof for the leaves in `D`: the trees with a proven leaf are numbered again. -/
noncomputable def Marks.proved (m : Marks) (n : Nat) (D : List Nat) : Marks := fun h =>
  open Classical in if ∃ a ∈ D, InTree n h a then rowsOf n else m h

/-- The marks of a copy of a pollard with `n` leaves after `a` leaves, and no deletions, were given to the pollard: if the first of them
made the pollard higher, the copy's only root is shown in the pollard's numbering. -/
def Marks.aside (m : Marks) (n a : Nat) : Marks :=
  if 0 < a ∧ 1 < n ∧ rowsOf n < rowsOf (n + 1) then fun _ => rowsOf (n + 1) else m

/-! ## The texts -/

/-- The decimal digits of a number. -/
def number (n : Nat) : List Char := (toString n).toList

/-- Each of the pieces followed by the same separator. -/
def each (sep : String) (l : List (List Char)) : List Char := l.flatMap fun x => x ++ sep.toList

/-- The text for roots with the given numbers and (already rendered) hashes. -/
def rootsText (ps : List Nat) (hs : List (List Char)) : List Char :=
  each "\n" (List.zipWith (fun p x => "root: ".toList ++ number p ++ ":".toList ++ x) ps hs)

/-- The text for a proof. -/
def proofText (targets : List Nat) (hs : List (List Char)) : List Char :=
  "targets: ".toList ++ each " " (targets.map number) ++ "\nproof: ".toList ++ each ", " hs ++ "\n".toList

/-- The text for a swap: whether it is one of ranges, whether it is a collapse, the two positions and the length of the ranges. -/
def swapText (isRange collapse : Bool) (a b range : Nat) : List Char :=
  (if isRange then "r" else "_").toList ++ (if collapse then "c" else "_").toList ++ " (".toList ++ number a ++ ", ".toList ++
    number b ++ ") ".toList ++ number range

/-- The text for an undo batch. -/
def undoText (adds : Nat) (positions : List Nat) (hs : List (List Char)) : List Char :=
  "prev num adds: ".toList ++ number adds ++ "\ndeleted positions: ".toList ++ each " " (positions.map number) ++
    "\ndeleted hashes: ".toList ++ each ", " hs ++ "\n".toList

/-- The text for the entries of a map. -/
def mapText (es : List (List Char × Nat)) : List Char :=
  "pos map:\n".toList ++ each "\n" (es.map fun e => e.1 ++ " -> ".toList ++ number e.2)

/-- The value of a lower-case hexadecimal digit. -/
def hexDigit (c : Char) : Option Nat :=
  if '0' ≤ c ∧ c ≤ '9' then some (c.toNat - '0'.toNat) else if 'a' ≤ c ∧ c ≤ 'f' then some (c.toNat - 'a'.toNat + 10) else none

/-- `t` are the bytes `b` in lower-case hexadecimal, two digits for each byte, the high one first. -/
def IsHex (b : List (BitVec 8)) (t : List Char) : Prop :=
  t.length = 2 * b.length ∧ ∀ (i : Nat) (v : BitVec 8), b[i]? = some v → ∃ c d x y, t[2 * i]? = some c ∧ t[2 * i + 1]? = some d ∧
    hexDigit c = some x ∧ hexDigit d = some y ∧ v.toNat = 16 * x + y

end Spec
end Utreexo
