import Verif.Proof.Total

/-!
# `ForestState` above `2^62` leaves

With 63 rows the rows 0 and 63 have no root position, with 64 rows no row has one and no node has a parent.
-/

set_option linter.unusedSectionVars false

namespace Utreexo
namespace St
open Spec

theorem rows_63 {n : ℕ} (h1 : 2 ^ 62 < n) (h2 : n ≤ 2 ^ 63) : numRows n = 63 := by
  have l1 : ¬ numRows n ≤ 62 := fun h => by
    have := (numRows_le_iff (n := n) (by omega) 62).1 h; omega
  have l2 := (numRows_le_iff (n := n) (by omega) 63).2 h2
  omega

theorem rows_64 {n : ℕ} (h1 : 2 ^ 63 < n) (h2 : n < 2 ^ 64) : numRows n = 64 := by
  have l1 : ¬ numRows n ≤ 63 := fun h => by
    have := (numRows_le_iff (n := n) h2 63).1 h; omega
  have l2 := (numRows_le_iff (n := n) h2 64).2 (by omega)
  omega

theorem parent_63 {n : ℕ} (h : numRows n = 63) (p : ℕ) : ∃ q, parent n p = .ok q := by
  unfold parent shl64
  rw [h, if_pos (by omega), ok_bind]
  exact ⟨_, rfl⟩

theorem parent_64 {n : ℕ} (h : numRows n = 64) (p : ℕ) : parent n p = .error .ub := by
  unfold parent shl64
  rw [h, if_neg (by omega), error_bind]

theorem rootIn_63 (m : ℕ) {row : ℕ} (h1 : 0 < row) (h2 : row < 63) : ∃ p, rootPositionIn row m 63 = .ok p := by
  unfold rootPositionIn shl64 shr64
  rw [if_pos (by omega), ok_bind]
  dsimp only
  rw [if_pos (by omega), ok_bind]
  rw [if_pos (by omega), ok_bind, if_pos (by omega), ok_bind]
  exact ⟨_, rfl⟩

theorem rootIn_63_zero (m : ℕ) : rootPositionIn 0 m 63 = .error .ub := by
  unfold rootPositionIn shl64 shr64
  simp [ok_bind, error_bind]

theorem rootIn_63_top (m : ℕ) : rootPositionIn 63 m 63 = .error .ub := by
  unfold rootPositionIn shl64 shr64
  simp [ok_bind, error_bind]

theorem rootIn_64 (m row : ℕ) : rootPositionIn row m 64 = .error .ub := by
  unfold rootPositionIn shl64
  simp [error_bind]

theorem hasRoot_ok {n row : ℕ} (h : row < 64) : hasRoot n row = .ok (decide (n / 2 ^ row % 2 = 1)) := by
  unfold hasRoot shr64
  rw [if_pos (by omega), ok_bind]
  simp only [Int.toNat_natCast, Nat.shiftRight_eq_div_pow, Nat.and_one_is_mod, pure, Except.pure]
  congr 1
  have := Nat.mod_two_eq_zero_or_one (n / 2 ^ row)
  rcases this with h | h <;> simp [h]

theorem hasRoot_64 (n : ℕ) : hasRoot n 64 = .error .ub := by
  unfold hasRoot shr64
  rw [if_neg (by omega), error_bind]

/-! ## The list of roots -/

theorem rootLoop_even {n : ℕ} (he : n % 2 = 0) (hn : n < 2 ^ 63) : ∀ k, k ≤ 64 → ∃ l, rootPositionsLoop n 63 k = .ok l := by
  intro k
  induction k with
  | zero => intro _; exact ⟨_, rfl⟩
  | succ k ih =>
    intro hk
    obtain ⟨l, hl⟩ := ih (by omega)
    rw [rootPositionsLoop, if_pos (by omega), hasRoot_ok (by omega), ok_bind, hl]
    by_cases h : n / 2 ^ k % 2 = 1
    · have h0 : 0 < k := by
        rcases Nat.eq_zero_or_pos k with rfl | h0
        · simp at h; omega
        · exact h0
      have h1 : k < 63 := by
        by_contra hc
        have : k = 63 := by omega
        subst this
        rw [Nat.div_eq_of_lt hn] at h
        omega
      obtain ⟨p, hp⟩ := rootIn_63 n h0 h1
      rw [if_pos (by simpa using h), hp, ok_bind, ok_bind]
      exact ⟨_, rfl⟩
    · rw [if_neg (by simpa using h)]
      exact ⟨_, rfl⟩

theorem roots_even {n : ℕ} (h1 : 2 ^ 62 < n) (h2 : n < 2 ^ 63) (he : n % 2 = 0) : ∃ l, rootPositions n = .ok l := by
  unfold rootPositions rootPositionsOf
  rw [rows_63 h1 (by omega)]
  exact rootLoop_even he h2 64 le_rfl

theorem roots_top : rootPositions (2 ^ 63) = .error .ub := by
  unfold rootPositions rootPositionsOf
  rw [rows_63 (by omega) le_rfl, rootPositionsLoop, if_pos (by omega), hasRoot_ok (by omega), ok_bind, if_pos (by decide),
    rootIn_63_top, error_bind]

theorem roots_64 {n : ℕ} (h1 : 2 ^ 63 < n) (h2 : n < 2 ^ 64) : rootPositions n = .ok [] := by
  unfold rootPositions rootPositionsOf
  rw [rows_64 h1 h2, rootPositionsLoop, if_neg (by omega)]

/-! ## `ProofPositions` -/

theorem dropRoot_nil {n row : ℕ} (h : row < 64) : dropRootTarget n row [] = .ok [] := by
  unfold dropRootTarget
  rw [hasRoot_ok h, ok_bind]
  split <;> rfl

theorem dropRoot_none {n row : ℕ} (h : row < 64) (h0 : n / 2 ^ row % 2 ≠ 1) (l : List ℕ) : dropRootTarget n row l = .ok l := by
  unfold dropRootTarget
  rw [hasRoot_ok h, ok_bind, if_neg (by simpa using h0)]
  rfl

theorem dropRoot_ub {n row : ℕ} (h : row < 64) (h0 : n / 2 ^ row % 2 = 1) (hr : rootPosition n row = .error .ub) {l : List ℕ}
    (hl : l ≠ []) : dropRootTarget n row l = .error .ub := by
  unfold dropRootTarget
  rw [hasRoot_ok h, ok_bind, if_pos (by simpa using h0)]
  obtain ⟨t, ht⟩ : ∃ t, l.getLast? = some t := ⟨_, List.getLast?_eq_some_getLast hl⟩
  rw [ht]
  dsimp only
  rw [hr, error_bind]

theorem dropRoot_63 {n row : ℕ} (hr : numRows n = 63) (h0 : 0 < row) (h1 : row < 63) (l : List ℕ) :
    ∃ r, dropRootTarget n row l = .ok r := by
  unfold dropRootTarget rootPosition
  rw [hasRoot_ok (by omega), ok_bind, hr]
  obtain ⟨p, hp⟩ := rootIn_63 n h0 h1
  split
  · split
    · exact ⟨_, rfl⟩
    · rw [hp, ok_bind]
      split <;> exact ⟨_, rfl⟩
  · exact ⟨_, rfl⟩

theorem proofRows_nil {n : ℕ} : ∀ (k row : ℕ), row + k ≤ 64 → proofRows n k row [] = .ok ([], []) := by
  intro k
  induction k with
  | zero => intro row _; rfl
  | succ k ih =>
    intro row h
    rw [proofRows, dropRoot_nil (by omega), ok_bind, proofRow, ok_bind]
    dsimp only
    rw [ih (row + 1) (by omega), ok_bind]
    rfl

theorem proofRows_even {n : ℕ} (h1 : 2 ^ 62 < n) (h2 : n < 2 ^ 63) (he : n % 2 = 0) : ∀ (k row : ℕ) (l : List ℕ), row + k ≤ 64 →
    ∃ r, proofRows n k row l = .ok r := by
  have hr := rows_63 h1 (by omega)
  intro k
  induction k with
  | zero => intro row l _; exact ⟨_, rfl⟩
  | succ k ih =>
    intro row l h
    have hd : ∃ ts, dropRootTarget n row l = .ok ts := by
      rcases Nat.eq_zero_or_pos row with rfl | h0
      · exact ⟨_, dropRoot_none (by omega) (by simp; omega) l⟩
      · by_cases h63 : row < 63
        · exact dropRoot_63 hr h0 h63 l
        · refine ⟨_, dropRoot_none (by omega) ?_ l⟩
          have : row = 63 := by omega
          subst this
          rw [Nat.div_eq_of_lt h2]
          decide
    obtain ⟨ts, e1⟩ := hd
    obtain ⟨⟨pf, nx⟩, e2⟩ := proofRow_of_parent (parent_63 hr) _ ts le_rfl
    obtain ⟨⟨a, b⟩, e3⟩ := ih (row + 1) nx (by omega)
    exact ⟨_, by rw [proofRows, e1, ok_bind, e2, ok_bind]; dsimp only; rw [e3, ok_bind]; rfl⟩

theorem proofPositions_nil {n : ℕ} (h : n ≤ 2 ^ 63) : proofPositions n [] = .ok ([], []) := by
  unfold proofPositions
  have := (numRows_le_iff (n := n) (by omega) 63).2 h
  exact proofRows_nil _ _ (by omega)

theorem proofPositions_even {n : ℕ} (h1 : 2 ^ 62 < n) (h2 : n < 2 ^ 63) (he : n % 2 = 0) (l : List ℕ) :
    ∃ r, proofPositions n l = .ok r := by
  unfold proofPositions
  rw [rows_63 h1 (by omega)]
  exact proofRows_even h1 h2 he _ _ _ (by omega)

theorem proofPositions_odd {n : ℕ} (h1 : 2 ^ 62 < n) (h2 : n ≤ 2 ^ 63) (ho : n % 2 = 1) {l : List ℕ} (hl : l ≠ []) :
    proofPositions n l = .error .ub := by
  have hr := rows_63 h1 h2
  unfold proofPositions
  rw [hr, proofRows, dropRoot_ub (by omega) (by simpa using ho) (by unfold rootPosition; rw [hr]; exact rootIn_63_zero n) hl, error_bind]

theorem proofRow_ne {n : ℕ} (hq : ∀ p, ∃ q, parent n p = .ok q) {l : List ℕ} (hl : l ≠ []) :
    ∃ pf a nx, proofRow n l = .ok (pf, a :: nx) := by
  have ht := fun l : List ℕ => proofRow_of_parent hq _ l le_rfl
  choose f hf using ht
  choose q hq using hq
  match l, hl with
  | [a], _ => exact ⟨_, _, _, by rw [proofRow, hq, ok_bind]; rfl⟩
  | [a, b], _ =>
    rw [proofRow]
    simp only [hq, ok_bind, hf]
    split
    · exact ⟨_, _, _, rfl⟩
    · split <;> exact ⟨_, _, _, rfl⟩
  | [a, b, c], _ =>
    rw [proofRow]
    simp only [hq, ok_bind, hf]
    split
    · exact ⟨_, _, _, rfl⟩
    · split
      · exact ⟨_, _, _, rfl⟩
      · split <;> exact ⟨_, _, _, rfl⟩
  | a :: b :: c :: d :: rest, _ =>
    rw [proofRow]
    simp only [hq, ok_bind, hf]
    split
    · exact ⟨_, _, _, rfl⟩
    · split
      · exact ⟨_, _, _, rfl⟩
      · split
        · exact ⟨_, _, _, rfl⟩
        · split <;> exact ⟨_, _, _, rfl⟩

theorem top_bits {row : ℕ} (h : row < 63) : 2 ^ 63 / 2 ^ row % 2 ≠ 1 := by
  rw [Nat.pow_div (by omega) (by omega)]
  obtain ⟨k, hk⟩ : ∃ k, 63 - row = k + 1 := ⟨62 - row, by omega⟩
  rw [hk, pow_succ]
  omega

theorem proofRows_top : ∀ (k row : ℕ) (l : List ℕ), row + k = 64 → 0 < k → l ≠ [] → proofRows (2 ^ 63) k row l = .error .ub := by
  have hr : numRows (2 ^ 63) = 63 := rows_63 (by omega) le_rfl
  intro k
  induction k with
  | zero => intro row l _ h; omega
  | succ k ih =>
    intro row l h _ hl
    rcases Nat.eq_zero_or_pos k with rfl | h0
    · have : row = 63 := by omega
      subst this
      rw [proofRows, dropRoot_ub (by omega) (by decide) (by unfold rootPosition; rw [hr]; exact rootIn_63_top _) hl, error_bind]
    · obtain ⟨pf, a, nx, e⟩ := proofRow_ne (parent_63 hr) hl
      rw [proofRows, dropRoot_none (by omega) (top_bits (by omega)) l, ok_bind, e, ok_bind]
      dsimp only
      rw [ih (row + 1) (a :: nx) (by omega) h0 (by simp), error_bind]

theorem proofPositions_top {l : List ℕ} (hl : l ≠ []) : proofPositions (2 ^ 63) l = .error .ub := by
  unfold proofPositions
  rw [rows_63 (by omega) le_rfl]
  exact proofRows_top _ _ _ rfl (by omega) hl

theorem proofRow_64 {n : ℕ} (hr : numRows n = 64) {l : List ℕ} (hl : l ≠ []) : proofRow n l = .error .ub := by
  have hp := parent_64 hr
  match l, hl with
  | [a], _ => rw [proofRow, hp, error_bind]
  | [a, b], _ =>
    rw [proofRow]
    simp only [hp, error_bind, ite_self]
  | [a, b, c], _ =>
    rw [proofRow]
    simp only [hp, error_bind, ite_self]
  | a :: b :: c :: d :: rest, _ =>
    rw [proofRow]
    simp only [hp, error_bind, ite_self]

theorem proofRows_64_nil {n : ℕ} : ∀ (k row : ℕ), row + k = 65 → 0 < k → proofRows n k row [] = .error .ub := by
  intro k
  induction k with
  | zero => intro row _ h; omega
  | succ k ih =>
    intro row h _
    rcases Nat.eq_zero_or_pos k with rfl | h0
    · have : row = 64 := by omega
      subst this
      rw [proofRows]
      unfold dropRootTarget
      rw [hasRoot_64, error_bind, error_bind]
    · rw [proofRows, dropRoot_nil (by omega), ok_bind, proofRow, ok_bind]
      dsimp only
      rw [ih (row + 1) (by omega) h0, error_bind]

theorem proofPositions_64 {n : ℕ} (h1 : 2 ^ 63 < n) (h2 : n < 2 ^ 64) (l : List ℕ) : proofPositions n l = .error .ub := by
  have hr := rows_64 h1 h2
  unfold proofPositions
  rw [hr]
  by_cases hl : l = []
  · subst hl
    exact proofRows_64_nil _ _ rfl (by omega)
  · rw [proofRows]
    by_cases h0 : n / 2 ^ 0 % 2 = 1
    · rw [dropRoot_ub (by omega) h0 (by unfold rootPosition; rw [hr]; exact rootIn_64 _ _) hl, error_bind]
    · rw [dropRoot_none (by omega) h0, ok_bind, proofRow_64 hr hl, error_bind]

/-! ## `Transform` -/

theorem transform_nil (n : ℕ) : transform n [] = .ok [] := by
  have : ∀ k row, transformRows n (sub64 n ([] : List ℕ).length) k row [] = .ok ([], []) := by
    intro k row
    cases k <;> rfl
  unfold transform
  rw [this, ok_bind]
  rfl

theorem transform_ub {n : ℕ} (h1 : 2 ^ 62 < n) (h2 : n < 2 ^ 64) {l : List ℕ} (hl : l ≠ []) : transform n l = .error .ub := by
  have hr : (∃ k, numRows n = k + 1) ∧ rootPosition n 0 = .error .ub := by
    unfold rootPosition
    by_cases h : n ≤ 2 ^ 63
    · rw [rows_63 h1 h]
      exact ⟨⟨62, rfl⟩, rootIn_63_zero n⟩
    · rw [rows_64 (by omega) h2]
      exact ⟨⟨63, rfl⟩, rootIn_64 n 0⟩
  obtain ⟨⟨k, hk⟩, hp⟩ := hr
  obtain ⟨t, ht⟩ : ∃ t, l.getLast? = some t := ⟨_, List.getLast?_eq_some_getLast hl⟩
  unfold transform
  rw [hk, transformRows, ht]
  dsimp only
  rw [hasRoot_ok (by omega), ok_bind, hp, error_bind, error_bind]

end St
end Utreexo
