import Verif.Model.Pollard

/-!
# Reference counting

The objects of a pollard are owned by `std::shared_ptr`s. The heap of the model keeps every object that was ever
allocated; an object is freed by the code as soon as nothing refers to it. These definitions say which objects that
leaves: they only speak of the references.
-/

namespace Utreexo
variable {H : Type}

namespace Pol

/-- Object `i` holds a reference to object `j` (`m_nieces`, src/pollard.cpp:26). -/
def Ref (p : Pollard H) (i j : Nat) : Prop := ∃ x, p.ext[i]? = some x ∧ (x.n0 = some j ∨ x.n1 = some j)

/-- The references held by the pollard itself: `m_remember` and the members of the nodes in `m_roots` and of their
parents. -/
def Handle (p : Pollard H) (i : Nat) : Prop :=
  i = remember ∨ ∃ r ∈ p.roots, ∃ e ∈ r.e :: r.up, e.node = some i ∨ e.sib = some i

/-- The objects that can be reached from the references of the pollard. -/
inductive Live (p : Pollard H) : Nat → Prop
  | handle {i : Nat} : Handle p i → Live p i
  | ref {i j : Nat} : Live p i → Ref p i j → Live p j

/-- `S` is a set of objects that reference counting may have left: an object is kept exactly if its reference count
is not zero, that is if the pollard refers to it or an object that is kept does. -/
def Counted (p : Pollard H) (S : Nat → Prop) : Prop := ∀ i, S i ↔ Handle p i ∨ ∃ j, S j ∧ Ref p j i

/-- A reference to `m_remember` held by a kept object: the object and which of its nieces it is. -/
def Mark (p : Pollard H) (S : Nat → Prop) (e : Nat × Bool) : Prop :=
  S e.1 ∧ ∃ x, p.ext[e.1]? = some x ∧ (if e.2 then x.n1 else x.n0) = some remember

end Pol
end Utreexo
