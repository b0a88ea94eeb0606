import Verif.Props.Order

/-!
# C61: the other ways to change a forest

Besides `RamForest::Modify(undo, leaves, targets)` a forest has the public `Add` (include/ram_forest.h:57), and through a reference to
its base class the two-argument `Accumulator::Modify` (include/accumulator.h:38), which calls the virtual `Add`.
-/

set_option linter.unusedSectionVars false

namespace Utreexo

open Spec Equiv Ram

variable {H : Type} [DecidableEq H] [HashOps H]

/-- The two-argument `Modify` of the base class on a forest. -/
abbrev Ram.baseModify (s : RamForest H) (leaves : List (Leaf H)) (targets : List ℕ) : Res (Bool × RamForest H) :=
  Acc.modify Ram.vt Ram.add s leaves targets

theorem Ram.modify_nil (s : RamForest H) (leaves : List (Leaf H)) :
    Ram.modify s leaves [] = (do let s' ← Ram.add s leaves; return (true, some ⟨leaves.length, [], []⟩, s')) := by
  have h1 : Acc.remove Ram.vt s [] = .ok (true, s) := rfl
  have h2 : buildUndoBatch s leaves.length [] = .ok (some ⟨leaves.length, [], []⟩) := rfl
  unfold Ram.modify
  simp only [h1, h2, ok_bind, Bool.not_true, Bool.false_eq_true, if_false]

/-- C61: `Add` appends the leaves, exactly as `Modify` without targets, and can be undone with the batch of the number of leaves and
no deletions. -/
theorem C61_add (s : RamForest H) (st : List (UndoBatch H × RamForest H)) (h : Run s st) (L : List H) (hL : Represents s L)
    (leaves : List (Leaf H)) (hd : (leaves.map Prod.fst).Nodup) (hf : ∀ x ∈ L, x ∉ leaves.map Prod.fst)
    (ht : L.length + leaves.length ≤ 2 ^ 62) :
    ∃ s' s'', Ram.add s leaves = .ok s' ∧ Represents s' (L ++ leaves.map Prod.fst) ∧ Run s' ((⟨leaves.length, [], []⟩, s) :: st) ∧
      undo s' ⟨leaves.length, [], []⟩ = .ok (true, s'') ∧ Same s'' s := by
  have hv : Valid L (leaves.map Prod.fst) [] := by
    refine ⟨by simp, by simp, hd, ?_, by simp, by simpa using ht⟩
    intro x hx
    have : survivors L [] = L := by
      unfold survivors
      rw [List.filter_eq_self.2 (by simp)]
      simp
    rw [this] at hx
    exact hf x hx
  obtain ⟨u, s', a1, a2, a3⟩ := C17_add s st h L hL leaves hv
  obtain ⟨u2, s2, s'', b1, b2, -, b3⟩ := C20_undo s st h L hL leaves [] hv
  rw [a1] at b1
  obtain ⟨-, b1⟩ := Prod.mk.inj (Except.ok.inj b1)
  obtain ⟨e1, rfl⟩ := Prod.mk.inj b1
  obtain rfl := Option.some.inj e1
  have a4 := a1
  rw [modify_nil] at a4
  obtain ⟨s3, c1, c2⟩ := bind_eq_ok.1 a4
  obtain ⟨-, c3⟩ := Prod.mk.inj (Except.ok.inj c2)
  obtain ⟨c4, rfl⟩ := Prod.mk.inj c3
  obtain rfl := Option.some.inj c4
  exact ⟨s3, s'', c1, a3, a2, b2, b3⟩

/-- C61: the two-argument `Modify` leads to the same forest as `Modify` with an undo batch: on valid arguments both succeed, and the
leaves are those of the rule of C56; with unsorted, repeated or unknown targets both return false and change nothing. -/
theorem C61_base (s : RamForest H) (st : List (UndoBatch H × RamForest H)) (h : Run s st) (L : List H) (hL : Represents s L)
    (leaves : List (Leaf H)) (targets : List ℕ) :
    (Valid L (leaves.map Prod.fst) targets → ∃ u s', Ram.modify s leaves targets = .ok (true, some u, s') ∧
      baseModify s leaves targets = .ok (true, s') ∧ Represents s' (deleteLeaves L targets ++ leaves.map Prod.fst)) ∧
    (¬ (targets.Pairwise (· < ·) ∧ ∀ t ∈ targets, t < L.length) → Ram.modify s leaves targets = .ok (false, none, s) ∧
      baseModify s leaves targets = .ok (false, s)) := by
  constructor
  · intro hv
    obtain ⟨u, s', a1, -, a3⟩ := C56_order s st h L hL leaves targets hv
    refine ⟨u, s', a1, ?_, a3⟩
    unfold Ram.modify at a1
    obtain ⟨⟨b, s1⟩, e1, a1⟩ := bind_eq_ok.1 a1
    unfold baseModify Acc.modify
    rw [e1, ok_bind]
    cases b with
    | false =>
      simp only [Bool.not_false, if_true] at a1
      exact absurd (Prod.mk.inj (Except.ok.inj a1)).1 (by simp)
    | true =>
      simp only [Bool.not_true, Bool.false_eq_true, if_false] at a1 ⊢
      obtain ⟨o, e2, a1⟩ := bind_eq_ok.1 a1
      cases o with
      | none => exact absurd (Prod.mk.inj (Except.ok.inj a1)).1 (by simp)
      | some u0 =>
        simp only at a1
        obtain ⟨s2, e3, a1⟩ := bind_eq_ok.1 a1
        rw [e3, ok_bind]
        obtain ⟨-, c⟩ := Prod.mk.inj (Except.ok.inj a1)
        obtain ⟨-, rfl⟩ := Prod.mk.inj c
        rfl
  · intro hn
    rw [← hL.count] at hn
    refine ⟨C19_insane s leaves targets hn, ?_⟩
    have a1 := C19_insane s leaves targets hn
    unfold Ram.modify at a1
    obtain ⟨⟨b, s1⟩, e1, a1⟩ := bind_eq_ok.1 a1
    unfold baseModify Acc.modify
    rw [e1, ok_bind]
    cases b with
    | false =>
      simp only [Bool.not_false, if_true] at a1 ⊢
      obtain ⟨-, c⟩ := Prod.mk.inj (Except.ok.inj a1)
      obtain ⟨-, rfl⟩ := Prod.mk.inj c
      rfl
    | true =>
      exfalso
      unfold Acc.remove at e1
      by_cases h0 : targets.length = 0
      · have : targets = [] := List.length_eq_zero_iff.1 h0
        subst this
        exact hn (by simp)
      · rw [if_neg h0] at e1
        simp only at e1
        obtain ⟨b, d1, d2⟩ := C07_checkTargetsSanity s.numLeaves targets
        rw [d1, ok_bind] at e1
        cases b with
        | true => exact hn (d2.1 rfl)
        | false => simp only [Bool.not_false, if_true] at e1; exact absurd (Prod.mk.inj (Except.ok.inj e1)).1 (by simp)

/-! ## Concrete cases -/

section Examples

attribute [local instance] toyOps

/-- Cases of `C61_add` and `C61_base`: seven leaves by `Add`, then three deletions and two additions by the two-argument `Modify`. -/
example : (do let s ← Ram.add (Ram.mk 0) toyLeaves
              let (b, t) ← baseModify s [(21, false), (14, false)] [0, 3, 4]
              let (c, v) ← baseModify t [] [2, 1]
              return ([b, c], [← getLeaf t 0, ← getLeaf t 4, ← getLeaf t 5], decide (v = t))) =
    .ok ([true, false], [13, 21, 14], true) := by decide +kernel

end Examples

end Utreexo
