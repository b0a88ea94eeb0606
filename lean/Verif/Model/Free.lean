import Verif.Spec.Refs

/-!
# Destroying a pollard

The node objects of a pollard are owned by `std::shared_ptr`s (`NodePtr`, include/accumulator.h:20), which keep a count of the references to each of
them. An object is destroyed by the assignment that takes the last reference away, and its destructor takes away the references that it holds
itself (src/pollard.cpp:42-46): the destructors call each other, as deep as the references go. The stack that is left for these calls is an
argument of the model.
-/

namespace Utreexo
namespace Pol

variable {H : Type}

/-- The reference counts of the objects and the objects that have been freed, in this order. -/
structure Use where
  cnt : Nat → Nat
  freed : List Nat

/-- One reference to object `i` less. -/
def Use.drop (u : Use) (i : Nat) : Use := { u with cnt := fun j => if j = i then u.cnt j - 1 else u.cnt j }

/-- A `shared_ptr` is set to `nullptr` or destroyed, and there is room for `stack` nested calls of `~InternalNode` (src/pollard.cpp:42-46). To
release a reference that is not counted is undefined behaviour (the object has been freed before), and so is a stack overflow. -/
def release (heap : List (INode H)) : Nat → Use → Option Nat → Res Use
  | _, u, none => .ok u
  | 0, u, some i => if u.cnt i ≤ 1 then .error .ub else .ok (u.drop i)
  | stack + 1, u, some i =>
    if u.cnt i = 0 then .error .ub
    else if u.cnt i ≠ 1 then .ok (u.drop i)
    else do
      let x ← vecGet heap i
      let u1 ← release heap stack (u.drop i) x.n0
      let u2 ← release heap stack u1 x.n1
      return { u2 with freed := u2.freed ++ [i] }

/-- Several references are released one after the other. -/
def releaseAll (heap : List (INode H)) (stack : Nat) : List (Option Nat) → Use → Res Use
  | [], u => .ok u
  | o :: os, u => do
    let u' ← release heap stack u o
    releaseAll heap stack os u'

/-- The references that a `Pollard::Node` gives up in its destructors: `m_node` and `m_sibling` (src/pollard.cpp:105-110), then those of its
parents (src/node.h:24-27). -/
def nodeRefs (r : PNode) : List (Option Nat) := (r.e :: r.up).flatMap fun e => [e.node, e.sib]

/-- The references that `~Pollard` gives up (src/pollard.cpp:145-148): `m_roots.clear()`, then the member `m_remember`. -/
def handles (p : Pollard H) : List (Option Nat) := p.roots.flatMap nodeRefs ++ [some remember]

/-- How many references to object `i` object `j` holds (`m_nieces`, src/pollard.cpp:26). -/
def refsFrom (heap : List (INode H)) (j i : Nat) : Nat :=
  match heap[j]? with
  | none => 0
  | some x => (if x.n0 = some i then 1 else 0) + (if x.n1 = some i then 1 else 0)

/-- `use_count()` of object `i` if `objs` are the objects that have not been freed. -/
def useCount (p : Pollard H) (objs : List Nat) (i : Nat) : Nat :=
  (handles p).count (some i) + (objs.map fun j => refsFrom p.ext j i).sum

/-- `Pollard::~Pollard` (src/pollard.cpp:145-148) when `objs` are the objects that have not been freed. -/
def destroy (stack : Nat) (p : Pollard H) (objs : List Nat) : Res Use :=
  releaseAll p.ext stack (handles p) { cnt := useCount p objs, freed := [] }

end Pol
end Utreexo
