/-!
# Modelling C++ outcomes and fixed width integers

Every modelled function that can misbehave returns `Res α`: either a value or a
`Fault`.  Undefined behaviour, failed `assert`s and thrown exceptions are distinct
outcomes of the model; nothing is assumed away.

64-bit unsigned values are represented as `Nat` together with explicit reduction modulo
`2^64` wherever the C++ operation can wrap.
-/

namespace Utreexo

/-- The abnormal outcomes of a modelled C++ function. -/
inductive Fault where
  /-- undefined behaviour: out-of-range shift, out-of-bounds access, null dereference, ... -/
  | ub
  /-- a failed `assert` (`abort()`) -/
  | abort
  /-- a thrown C++ exception (`vector::at`, `optional::value`, ...) -/
  | exc
  deriving DecidableEq, Repr

/-- Result of running a piece of C++ code. -/
abbrev Res (α : Type _) := Except Fault α

/-- `assert(cond)` in a build without `NDEBUG`. -/
def cassert (b : Bool) : Res Unit := if b then .ok () else .error .abort

/-- `v.at(i)`: throws `std::out_of_range`. -/
def vecAt {α : Type _} (v : List α) (i : Nat) : Res α :=
  match v[i]? with
  | some x => .ok x
  | none => .error .exc

/-- `v[i]`: undefined behaviour out of bounds. -/
def vecGet {α : Type _} (v : List α) (i : Nat) : Res α :=
  match v[i]? with
  | some x => .ok x
  | none => .error .ub

/-- `v[i] = x`: undefined behaviour out of bounds. -/
def vecSet {α : Type _} (v : List α) (i : Nat) (x : α) : Res (List α) :=
  if i < v.length then .ok (v.set i x) else .error .ub

/-- `v.resize(k)` with value-initialised fill `d`. -/
def vecResize {α : Type _} (v : List α) (k : Nat) (d : α) : List α :=
  v.take k ++ List.replicate (k - v.length) d

/-- `2^64` -/
def two64 : Nat := 18446744073709551616

/-- `uint64_t` wrap-around. -/
def wrap64 (x : Nat) : Nat := x % two64

/-- `uint64_t` subtraction `a - b` (for `a, b < 2^64`). -/
def sub64 (a b : Nat) : Nat := (a + (two64 - b)) % two64

/-- `~a` on `uint64_t` (for `a < 2^64`). -/
def not64 (a : Nat) : Nat := two64 - 1 - a

/-- `a << s` on `uint64_t`.  The shift count is an `int` in C++: a negative count or a count
`≥ 64` is undefined behaviour. -/
def shl64 (a : Nat) (s : Int) : Res Nat :=
  if 0 ≤ s ∧ s < 64 then .ok ((a <<< s.toNat) % two64) else .error .ub

/-- `a >> s` on `uint64_t`, same rule for the count. -/
def shr64 (a : Nat) (s : Int) : Res Nat :=
  if 0 ≤ s ∧ s < 64 then .ok (a >>> s.toNat) else .error .ub

end Utreexo
