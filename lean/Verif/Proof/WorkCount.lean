import Verif.Proof.WorkVerify
import Verif.Proof.Size

/-!
# How many nodes lie above the targets
-/

set_option linter.unusedSectionVars false

namespace Utreexo
open Spec Equiv

namespace Pol

theorem inForest_div {n r k : ℕ} : InForest n r k ↔ k < n / 2 ^ r := by
  unfold InForest
  rw [← Nat.le_div_iff_mul_le (Nat.two_pow_pos r)]
  exact Nat.succ_le_iff

/-- Rows on which there is no node at all. -/
theorem rows_lt {n r k : ℕ} (hn : n ≤ 2 ^ 62) (h : InForest n r k) : r < 63 := by
  by_contra hc
  have h1 : 2 ^ 63 ≤ 2 ^ r := Nat.pow_le_pow_right (by omega) (by omega)
  unfold InForest at h
  have h2 : 1 * 2 ^ r ≤ (k + 1) * 2 ^ r := Nat.mul_le_mul_right _ (by omega)
  have : (2 : ℕ) ^ 62 < 2 ^ 63 := by norm_num
  omega

theorem computed_above {n : ℕ} {D : List ℕ} (hS : Sane n D) : ∃ l : List (ℕ × ℕ), l.Nodup ∧ l.length = computed n D 1 66 ∧
    ∀ r x, (r, x) ∈ l ↔ 1 ≤ r ∧ Spec.Above n D r x := by
  obtain ⟨l, h1, h2, h3⟩ := computed_list hS 1 66
  refine ⟨l, h1, h2, fun r x => ?_⟩
  rw [h3, mem_Cn hS]
  unfold Spec.Above
  rw [inForest_div]
  constructor
  · rintro ⟨h, h'⟩; exact ⟨h.1, h'⟩
  · rintro ⟨h, h'⟩
    have := rows_lt hS.n62 (inForest_div.2 h'.1)
    exact ⟨⟨h, by omega⟩, h'⟩

/-- One node for each row of the tree of each target. -/
theorem above_heights {n : ℕ} {D : List ℕ} {l : List (ℕ × ℕ)} (hl : l.Nodup) (hm : ∀ r x, (r, x) ∈ l → 1 ≤ r ∧ Spec.Above n D r x)
    (height : ℕ → ℕ) (hh : ∀ t ∈ D, InTree n (height t) t) : l.length ≤ (D.map height).sum := by
  have h1 : l.length ≤ (D.flatMap fun a => (List.range' 1 (height a)).map fun r => (r, a / 2 ^ r)).length := by
    apply List.Subperm.length_le
    apply hl.subperm
    rintro ⟨r, x⟩ h
    obtain ⟨h1, h2, a, ha, e⟩ := hm r x h
    rw [List.mem_flatMap]
    refine ⟨a, ha, List.mem_map.2 ⟨r, ?_, by rw [e]⟩⟩
    rw [List.mem_range'_1]
    obtain ⟨q, rfl⟩ : ∃ q, r = q + 1 := ⟨r - 1, by omega⟩
    rw [← e] at h2
    have := (Size.inForest_tree (hh a ha)).1 h2
    omega
  rw [List.length_flatMap] at h1
  simpa using h1

/-- Row by row there are at most half as many nodes. -/
theorem above_all {n : ℕ} {D : List ℕ} (hS : Sane n D) (k m : ℕ) : computed n D (k + 1) m + n / 2 ^ (k + m) ≤ n / 2 ^ k := by
  induction m generalizing k with
  | zero => simp [computed]
  | succ m ih =>
    have h := ih (k + 1)
    unfold computed at h ⊢
    rw [List.range'_succ, List.map_cons, List.sum_cons]
    have h1 : (Cn n D (k + 1)).length ≤ n / 2 ^ (k + 1) := by
      have : (Cn n D (k + 1)).length ≤ (List.range (n / 2 ^ (k + 1))).length := by
        apply List.Subperm.length_le
        apply List.Nodup.subperm
        · exact ((Cn_ok hS _).1.imp fun h => Nat.ne_of_lt h)
        · intro x hx
          exact List.mem_range.2 ((mem_Cn hS).1 hx).1
      simpa using this
    have h2 : n / 2 ^ (k + 1) + n / 2 ^ (k + 1) ≤ n / 2 ^ k := by
      rw [Nat.pow_succ, ← Nat.div_div_eq_div_mul]
      omega
    rw [show k + (m + 1) = k + 1 + m from by omega]
    omega

/-- Above the tallest tree there is nothing. -/
theorem computed_log {n : ℕ} {D : List ℕ} (hS : Sane n D) : computed n D 1 66 ≤ computed n D 1 (Nat.log2 n) := by
  have key : ∀ m, computed n D 1 (Nat.log2 n + m) = computed n D 1 (Nat.log2 n) := by
    intro m
    unfold computed
    rw [← List.range'_append_1, List.map_append, List.sum_append]
    have : ((List.range' (1 + Nat.log2 n) m).map fun j => (Cn n D j).length) = (List.range' (1 + Nat.log2 n) m).map fun _ => 0 := by
      apply List.map_congr_left
      intro j hj
      rw [List.mem_range'_1] at hj
      rw [List.length_eq_zero_iff, List.eq_nil_iff_forall_not_mem]
      intro x hx
      have h1 := ((mem_Cn hS).1 hx).1
      have h2 : n / 2 ^ j = 0 := by
        apply Nat.div_eq_of_lt
        exact Nat.lt_of_lt_of_le Nat.lt_log2_self (Nat.pow_le_pow_right (by omega) (by omega))
      omega
    rw [this]
    simp
  rcases Nat.le_total (Nat.log2 n) 66 with h | h
  · obtain ⟨m, hm⟩ := Nat.exists_eq_add_of_le h
    rw [hm, key]
  · obtain ⟨m, hm⟩ := Nat.exists_eq_add_of_le h
    rw [hm]
    unfold computed
    rw [← List.range'_append_1 (m := 66), List.map_append, List.sum_append]
    omega

end Pol
end Utreexo
