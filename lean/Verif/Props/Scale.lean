import Verif.Props.OneGone
import Verif.Proof.Scale

/-!
# C90: deleting whole subtrees is deleting leaves of a smaller forest

The rule of C56 is the same at every scale. If a block deletes whole subtrees of `2 ^ r` leaves, the subtrees of this height move like the
leaves of a smaller forest, and the leaves behind the last of them stay at the end.
-/

set_option linter.unusedSectionVars false

namespace Utreexo
open Spec Equiv Pol

variable {H : Type} [DecidableEq H] [HashOps H]

/-- The subtrees of height `r` of a forest with the leaves `L`, from left to right. -/
def subtrees {α : Type} (L : List α) (r : ℕ) : List (List α) := (List.range (L.length / 2 ^ r)).map (leavesBelow L r)

/-- The deleted leaves `D` are those below the nodes `I` of row `r`. -/
structure Whole {α : Type} (L : List α) (D : List ℕ) (r : ℕ) (I : List ℕ) : Prop where
  inside : ∀ i ∈ I, InForest L.length r i
  leaves : ∀ x, x ∈ D ↔ x / 2 ^ r ∈ I

/-- C90: the rule. -/
theorem C90_rule {α : Type} (L : List α) (D : List ℕ) (r : ℕ) (I : List ℕ) (h : Whole L D r I) :
    deleteLeaves L D = (deleteLeaves (subtrees L r) I).flatten ++ L.drop (L.length / 2 ^ r * 2 ^ r) :=
  Settle.delete_scale L D r I h.inside h.leaves

/-- C90: `Modify`. -/
theorem C90_forest (s : RamForest H) (st : List (UndoBatch H × RamForest H)) (h : Ram.Run s st) (L : List H) (hL : Ram.Represents s L)
    (leaves : List (Leaf H)) (targets : List ℕ) (hv : Ram.Valid L (leaves.map Prod.fst) targets) (r : ℕ) (I : List ℕ)
    (hw : Whole L targets r I) :
    ∃ u s', Ram.modify s leaves targets = .ok (true, some u, s') ∧ Ram.Run s' ((u, s) :: st) ∧
      Ram.Represents s' ((deleteLeaves (subtrees L r) I).flatten ++ L.drop (L.length / 2 ^ r * 2 ^ r) ++ leaves.map Prod.fst) := by
  obtain ⟨u, s', h1, h2, h3⟩ := C56_order s st h L hL leaves targets hv
  rw [C90_rule L targets r I hw] at h3
  exact ⟨u, s', h1, h2, h3⟩

/-- C90: one whole subtree, in closed form. `2 ^ k` is the number of subtrees in the smallest tree that has any. -/
theorem C90_one (s : RamForest H) (st : List (UndoBatch H × RamForest H)) (h : Ram.Run s st) (L : List H) (hL : Ram.Represents s L)
    (leaves : List (Leaf H)) (targets : List ℕ) (hv : Ram.Valid L (leaves.map Prod.fst) targets) (r i k : ℕ) (hw : Whole L targets r [i])
    (hk : 2 ^ k ∣ L.length / 2 ^ r) (hk' : ¬ 2 ^ (k + 1) ∣ L.length / 2 ^ r) :
    ∃ u s', Ram.modify s leaves targets = .ok (true, some u, s') ∧
      Ram.Represents s' ((withoutOne (subtrees L r) i k).flatten ++ L.drop (L.length / 2 ^ r * 2 ^ r) ++ leaves.map Prod.fst) := by
  obtain ⟨u, s', h1, -, h3⟩ := C90_forest s st h L hL leaves targets hv r [i] hw
  have hlen : (subtrees L r).length = L.length / 2 ^ r := by unfold subtrees; simp
  have hi : i < (subtrees L r).length := by
    have := hw.inside i (List.mem_singleton_self i)
    unfold InForest at this
    rw [hlen]
    exact (Nat.le_div_iff_mul_le (by positivity)).2 this
  rw [C89_rule (subtrees L r) i k hi (by rw [hlen]; exact hk) (by rw [hlen]; exact hk')] at h3
  exact ⟨u, s', h1, h3⟩

namespace Examples

attribute [local instance] toyOps

/-- The hypotheses of `C90_forest`: of eleven leaves two pairs are deleted. -/
example : Ram.Valid (List.range 11) [20] [2, 3, 8, 9] ∧ Whole (List.range 11) [2, 3, 8, 9] 1 [1, 4] := by
  refine ⟨⟨by decide, by decide, by decide, by decide, by decide, by decide⟩, ⟨?_, fun x => ?_⟩⟩
  · unfold InForest; decide
  · simp only [List.mem_cons, List.not_mem_nil, or_false]
    omega

/-- C90: the five pairs without the second and the last, and the odd leaf at the end; the same from the model. -/
theorem _root_.Utreexo.C90_case :
    deleteLeaves (subtrees (List.range 11) 1) [1, 4] = [[4, 5], [6, 7], [0, 1]] ∧
    (do let s ← Ram.calls [((List.range 11).map fun i => (10 + i, false), []), ([], [2, 3, 8, 9])] (Ram.mk 0)
        [14, 15, 16, 17, 10, 11, 20].mapM fun x => return (← Acc.prove Ram.vt s [x]).map BatchProof.targets) =
      .ok ((List.range 7).map fun i => some [i]) := by decide +kernel

/-- C90: the subtrees must be whole. If one leaf of a pair stays the other pairs do not move like the leaves of a smaller forest. -/
theorem _root_.Utreexo.C90_whole_needed :
    deleteLeaves (List.range 11) [2, 3, 8] ≠ (deleteLeaves (subtrees (List.range 11) 1) [1]).flatten ++ [10] ∧
    deleteLeaves (List.range 11) [2, 3, 8] ≠ (deleteLeaves (subtrees (List.range 11) 1) [1, 4]).flatten ++ [10] := by decide +kernel

end Examples

end Utreexo
