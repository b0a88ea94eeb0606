import Verif.Model.C

/-!
# What a pollard remembers, reads and records

A pollard keeps three things about leaves: which ones are remembered, which ones can be read, and at which positions it has
recorded them. The definitions below say what every operation does to them, in terms of the lists of leaves before and after. They
speak of no tree.
-/

namespace Utreexo
namespace Spec

variable {H : Type} [DecidableEq H]

/-- The leaf beside `x` in a forest holding `L`, if there is one. -/
def beside (L : List H) (x : H) : Option H := if x ∈ L then L[L.idxOf x ^^^ 1]? else none

/-- A recorded position `v` of a leaf that moves from `a` to `b`: the difference is added in 64 bit arithmetic. -/
def shifted (a b v : Nat) : Nat := (v + b + (2 ^ 64 - a)) % 2 ^ 64

/-- Where the exchanges of the bottom row alone take the leaf of position `i` when the leaf that ends up beside it comes from
position `k`: it stays if the two were neighbours or the other one comes from further right, otherwise it goes beside `k`. -/
def firstMove (i k : Nat) : Nat := if k = i ^^^ 1 ∨ i < k then i else k ^^^ 1

/-- What a pollard has about leaves. -/
structure Memo (H : Type) where
  /-- The leaf is remembered. -/
  held : H → Bool
  /-- The leaf can be read. -/
  seen : H → Bool
  /-- The position recorded for the leaf. -/
  pos : H → Option Nat

/-- A pollard without leaves. -/
def Memo.empty : Memo H := { held := fun _ => false, seen := fun _ => false, pos := fun _ => none }

/-- A pollard made from the roots of a forest holding `L`: it has the leaf that is a root. -/
def Memo.roots (L : List H) : Memo H :=
  { held := fun _ => false, seen := fun x => decide (x ∈ L) && (beside L x).isNone, pos := fun _ => none }

/-- The proof of the leaves `hs` is accepted: they are remembered, they and the leaves beside them can be read, and their positions
are recorded. -/
def Memo.verify (m : Memo H) (L hs : List H) : Memo H :=
  { held := fun x => m.held x || decide (x ∈ hs)
    seen := fun x => m.seen x || decide (x ∈ hs) || (beside L x).any (fun g => decide (g ∈ hs))
    pos := fun x => if x ∈ hs then some (L.idxOf x) else m.pos x }

/-- The leaves at the positions `ts`. -/
def leavesAt (L : List H) (ts : List Nat) : List H := ts.filterMap fun t => L[t]?

/-- A proof of the positions `ts` is rejected and `k` leaves more are remembered than before: they are the first ones of the positions
that are not remembered yet and whose neighbour, if any, can be read. -/
def Memo.refused (m : Memo H) (L : List H) (ts : List Nat) (k : Nat) : Memo H :=
  { m with held := fun x =>
      m.held x || decide (x ∈ ((leavesAt L ts).filter fun y => !m.held y && (beside L y).all m.seen).take k) }

/-- `Prune`: the recorded positions stay. -/
def Memo.prune (m : Memo H) (L : List H) : Memo H := { Memo.roots L with pos := m.pos }

/-- After a removal that leaves `M` of `L`, the leaf `x` can be read: nothing is beside it, or what is beside it is remembered, or
it is the leaf that was beside it before and `x` could be read before. -/
def Memo.kept (m : Memo H) (L M : List H) (x : H) : Bool :=
  match beside M x with
  | none => true
  | some g => m.held g || (decide (beside L x = some g) && m.seen x)

/-- The position recorded for `x` follows `x` if `x` can be read after the removal. Otherwise it is changed as if only the
exchanges of the bottom row had taken place. -/
def Memo.moved (m : Memo H) (L M : List H) (x : H) : Nat :=
  if m.kept L M x then M.idxOf x
  else match beside M x with
    | none => M.idxOf x
    | some g => firstMove (L.idxOf x) (L.idxOf g)

/-- A block that deletes `k` of the leaves `L` and then adds `leaves`; the result is `L'`. -/
def Memo.block (m : Memo H) (L : List H) (k : Nat) (leaves : List (H × Bool)) (L' : List H) : Memo H :=
  let M := L'.take (L.length - k)
  let held := fun x => (m.held x && decide (x ∈ M)) || decide ((x, true) ∈ leaves)
  { held := held
    seen := fun x =>
      if (beside M x).isSome then m.kept L M x
      else match beside L' x with
        | none => decide (x ∈ L')
        | some g => held x || held g
    pos := fun x =>
      if (x, true) ∈ leaves then some (L'.idxOf x)
      else if x ∈ M then (m.pos x).map (shifted (L.idxOf x) (m.moved L M x)) else none }

end Spec
end Utreexo
