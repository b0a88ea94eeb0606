/-!
# Specification: where the leaves go when some are deleted

Independent of the model. A row of the forest is a list of trees, each given by its leaves from left to right; `none` is a
tree all of whose leaves are deleted.
-/

namespace Utreexo
namespace Spec

/-- The trees of a row in pairs of siblings, and the last one if their number is odd. -/
def siblings {T : Type} : List (Option T) → List (Option T × Option T) × Option T
  | x :: y :: rest => ((x, y) :: (siblings rest).1, (siblings rest).2)
  | [x] => ([], x)
  | [] => ([], none)

/-- The next tree that has no sibling: the first one whose sibling is deleted, else the odd one at the end. It is taken out
of the row. -/
def takeNext {T : Type} : List (Option T × Option T) → Option T → Option (T × List (Option T × Option T) × Option T)
  | [], none => none
  | [], some t => some (t, [], none)
  | (some t, none) :: ps, o => some (t, (none, none) :: ps, o)
  | (none, some t) :: ps, o => some (t, (none, none) :: ps, o)
  | p :: ps, o => (takeNext ps o).map fun r => (r.1, p :: r.2.1, r.2.2)

/-- Join the siblings of a row of `k` pairs to trees of the next row. From left to right, a tree whose sibling is deleted gets the
next tree without sibling as its new one. If there is none it becomes the root of this row; otherwise the odd tree at the end is
the root if it is still there. -/
def joinRow {α : Type} : Nat → List (Option (List α) × Option (List α)) → Option (List α) →
    List (Option (List α)) × Option (List α)
  | k + 1, (x, y) :: ps, o =>
    match x, y with
    | some a, some b => (some (a ++ b) :: (joinRow k ps o).1, (joinRow k ps o).2)
    | none, none => (none :: (joinRow k ps o).1, (joinRow k ps o).2)
    | x, y =>
      match takeNext ps o with
      | some (t, ps', o') => (some (x.getD t ++ y.getD t) :: (joinRow k ps' o').1, (joinRow k ps' o').2)
      | none => (none :: (joinRow k ps o).1, x.or y)
  | _, _, o => ([], o)

/-- The leaves of the forest that is left of a row: the trees of the next rows first, the root of this row last. `k` bounds the
number of rows. -/
def settle {α : Type} : Nat → List (Option (List α)) → List α
  | 0, _ => []
  | k + 1, row =>
    settle k (joinRow (siblings row).1.length (siblings row).1 (siblings row).2).1 ++
      (joinRow (siblings row).1.length (siblings row).1 (siblings row).2).2.getD []

/-- The leaves `L` without those at the positions `D`, in the order in which the forest holds them. -/
def deleteLeaves {α : Type} (L : List α) (D : List Nat) : List α :=
  settle L.length (L.zipIdx.map fun e => if D.contains e.2 then none else some [e.1])

/-- Of 7 leaves the first is deleted: its sibling gets the root of the bottom row. -/
example : deleteLeaves [10, 11, 12, 13, 14, 15, 16] [0] = [16, 11, 12, 13, 14, 15] := by decide

/-- Of 8 leaves three are deleted: 13 becomes the sibling of 11, 16 is left alone and becomes the root of the bottom row, and the
pair 14, 15 the second tree of four leaves. -/
example : deleteLeaves [10, 11, 12, 13, 14, 15, 16, 17] [0, 2, 7] = [13, 11, 14, 15, 16] := by decide

end Spec
end Utreexo
