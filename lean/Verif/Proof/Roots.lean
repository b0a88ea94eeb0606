import Verif.Proof.Pos

/-! # Trees of the forest, root positions and paths -/

namespace Utreexo
open Spec

/-! ## Coordinates -/

theorem rowStart_strictMono {R r s : Nat} (h : r < s) : rowStart R r < rowStart R s := by
  induction s with
  | zero => omega
  | succ s ih =>
    have hp : 0 < 2 ^ (R - s) := by positivity
    rw [rowStart]
    rcases Nat.lt_succ_iff_lt_or_eq.1 h with h | h
    · have := ih h; omega
    · subst h; omega

theorem rowStart_mono {R r s : Nat} (h : r ≤ s) : rowStart R r ≤ rowStart R s := by
  rcases Nat.lt_or_eq_of_le h with h | h
  · exact (rowStart_strictMono h).le
  · rw [h]

theorem posOf_lt_next {R r i : Nat} (hi : i < 2 ^ (R - r)) : posOf R r i < rowStart R (r + 1) := by
  unfold posOf; rw [rowStart]; omega

/-- Nodes are numbered row by row. -/
theorem posOf_lt_of_row_lt {R r i s j : Nat} (hi : i < 2 ^ (R - r)) (h : r < s) :
    posOf R r i < posOf R s j := by
  have h1 := posOf_lt_next hi
  have h2 : rowStart R (r + 1) ≤ rowStart R s := rowStart_mono h
  have h3 : rowStart R s ≤ posOf R s j := by unfold posOf; omega
  omega

theorem posOf_inj {R r i s j : Nat} (hi : i < 2 ^ (R - r)) (hj : j < 2 ^ (R - s))
    (h : posOf R r i = posOf R s j) : r = s ∧ i = j := by
  rcases Nat.lt_trichotomy r s with h1 | h1 | h1
  · have := posOf_lt_of_row_lt (j := j) hi h1; omega
  · subst h1; unfold posOf at h; omega
  · have := posOf_lt_of_row_lt (j := i) hj h1; omega

theorem exists_posOf {R pos : Nat} : ∀ r, pos < rowStart R (r + 1) →
    ∃ s i, s ≤ r ∧ i < 2 ^ (R - s) ∧ pos = posOf R s i := by
  intro r
  induction r with
  | zero => intro h; exact ⟨0, pos, le_rfl, by simpa [rowStart] using h, by simp [posOf, rowStart]⟩
  | succ r ih =>
    intro h
    by_cases h1 : pos < rowStart R (r + 1)
    · obtain ⟨s, i, hs, hi, hp⟩ := ih h1
      exact ⟨s, i, by omega, hi, hp⟩
    · refine ⟨r + 1, pos - rowStart R (r + 1), le_rfl, ?_, by unfold posOf; omega⟩
      rw [rowStart] at h; omega

/-! ## Root lists -/

theorem popcountLoop_eq (k n : Nat) : St.popcountLoop k n = ((List.range k).filter n.testBit).length := by
  induction k generalizing n with
  | zero => simp [St.popcountLoop]
  | succ k ih =>
    rw [St.popcountLoop, ih, List.range_succ_eq_map, List.filter_cons, List.filter_map, ]
    have : (n.testBit ∘ Nat.succ) = (n / 2).testBit := by
      funext j; simp [Function.comp, Nat.testBit_succ]
    rw [this]
    rcases Nat.mod_two_eq_zero_or_one n with h | h
    · simp [h]
    · simp [h]; omega

theorem treeRows_length (n k : Nat) : (treeRows n k).length = ((List.range k).filter n.testBit).length := by
  induction k with
  | zero => simp [treeRows]
  | succ k ih =>
    rw [treeRows, List.range_succ, List.filter_append]
    by_cases h : n.testBit k = true
    · simp [h, ih]
    · simp [h, ih]

theorem treeRows_ext {n k l : Nat} (h : k ≤ l) (hn : n < 2 ^ k) : treeRows n l = treeRows n k := by
  induction l with
  | zero => have : k = 0 := by omega
            subst this; rfl
  | succ l ih =>
    rcases Nat.lt_or_eq_of_le h with h | h
    · rw [treeRows, if_neg, ih (by omega)]
      rw [Nat.testBit_lt_two_pow (lt_of_lt_of_le hn (Nat.pow_le_pow_right (by omega) (by omega)))]
      simp
    · rw [h]

theorem mem_treeRows {n k t : Nat} : t ∈ treeRows n k ↔ t < k ∧ n.testBit t = true := by
  induction k with
  | zero => simp [treeRows]
  | succ k ih =>
    rw [treeRows]
    by_cases hk : n.testBit k = true
    · rw [if_pos hk, List.mem_cons, ih]
      constructor
      · rintro (rfl | h)
        · exact ⟨by omega, hk⟩
        · exact ⟨by omega, h.2⟩
      · rintro ⟨h1, h2⟩
        rcases Nat.lt_succ_iff_lt_or_eq.1 h1 with h | h
        · exact .inr ⟨h, h2⟩
        · exact .inl h
    · rw [if_neg hk, ih]
      constructor
      · rintro ⟨h1, h2⟩; exact ⟨by omega, h2⟩
      · rintro ⟨h1, h2⟩
        refine ⟨?_, h2⟩
        rcases Nat.lt_succ_iff_lt_or_eq.1 h1 with h | h
        · exact h
        · subst h; exact absurd h2 hk

theorem treeRows_sorted (n k : Nat) : (treeRows n k).Pairwise (· > ·) := by
  induction k with
  | zero => simp [treeRows]
  | succ k ih =>
    rw [treeRows]
    split
    · rw [List.pairwise_cons]
      exact ⟨fun t ht => (mem_treeRows.1 ht).1, ih⟩
    · exact ih

theorem rootPositionsLoop_eq {num R : Nat} (hR : R ≤ 62) (hn : num ≤ 2 ^ R) :
    ∀ k, k ≤ R + 1 → St.rootPositionsLoop num R k =
      .ok ((treeRows num k).map fun t => posOf R t (rootIdx num t)) := by
  intro k
  induction k with
  | zero => intro _; simp [St.rootPositionsLoop, treeRows]
  | succ k ih =>
    intro hk
    rw [St.rootPositionsLoop, if_pos (by omega), hasRoot_eq (by omega), treeRows]
    simp only [ok_bind, ih (by omega), rootPositionIn_eq hR (by omega : k ≤ R) hn]
    split <;> rfl

theorem rootPositionsOf_eq {n num : Nat} (hn : n ≤ 2 ^ 62) (hnum : num ≤ n) :
    St.rootPositionsOf n num =
      .ok ((treeRows num (St.numRows n + 1)).map fun t => posOf (St.numRows n) t (rootIdx num t)) :=
  rootPositionsLoop_eq (numRows_le_62 hn) (le_trans hnum (le_two_pow_numRows (by omega))) _ le_rfl

theorem rootPositions_eq {n : Nat} (hn : n ≤ 2 ^ 62) :
    St.rootPositions n =
      .ok ((treeRows n (St.numRows n + 1)).map fun t => posOf (St.numRows n) t (rootIdx n t)) :=
  rootPositionsOf_eq hn le_rfl

/-! ## Trees -/

theorem testBit_div {n t : Nat} : n / 2 ^ t = 2 * (n / 2 ^ (t + 1)) + (if n.testBit t then 1 else 0) := by
  have h1 : n / 2 ^ (t + 1) = n / 2 ^ t / 2 := by rw [Nat.div_div_eq_div_mul, pow_succ]
  have h2 : n.testBit t = decide (n / 2 ^ t % 2 = 1) := Nat.testBit_eq_decide_div_mod_eq
  rw [h1, h2]
  by_cases h : n / 2 ^ t % 2 = 1
  · simp [h]; omega
  · simp [h]; omega

theorem treeStart_add_le {n t : Nat} (h : n.testBit t = true) : treeStart n t + 2 ^ t ≤ n := by
  have h1 := testBit_div (n := n) (t := t)
  rw [h] at h1
  simp only [if_true] at h1
  have h2 : n / 2 ^ t * 2 ^ t ≤ n := Nat.div_mul_le_self n (2 ^ t)
  unfold treeStart
  rw [h1] at h2
  rw [pow_succ]
  calc _ = (2 * (n / (2 ^ t * 2)) + 1) * 2 ^ t := by ring
    _ ≤ n := by rw [← pow_succ]; exact h2

theorem rootIdx_mul (n t : Nat) : rootIdx n t * 2 ^ t = treeStart n t := by
  unfold rootIdx treeStart; rw [pow_succ]; ring

/-- Leaf `a` lies in the tree of height `t` iff the leading parts agree and bit `t` differs. -/
theorem inTree_iff {n t a : Nat} :
    InTree n t a ↔ n.testBit t = true ∧ a.testBit t = false ∧ a / 2 ^ (t + 1) = n / 2 ^ (t + 1) := by
  unfold InTree treeStart
  have hp : 0 < 2 ^ (t + 1) := by positivity
  have h1 := testBit_div (n := a) (t := t)
  have hp' : 0 < 2 ^ t := by positivity
  constructor
  · rintro ⟨h, h2, h3⟩
    refine ⟨h, ?_⟩
    have e : a / 2 ^ (t + 1) = n / 2 ^ (t + 1) := by
      apply Nat.div_eq_of_lt_le
      · exact h2
      · rw [Nat.succ_mul]
        have : 2 ^ t ≤ 2 ^ (t + 1) := Nat.pow_le_pow_right (by omega) (by omega)
        omega
    refine ⟨?_, e⟩
    have : a / 2 ^ t = 2 * (n / 2 ^ (t + 1)) := by
      apply Nat.div_eq_of_lt_le
      · calc _ = n / 2 ^ (t + 1) * 2 ^ (t + 1) := by rw [pow_succ]; ring
          _ ≤ a := h2
      · calc a < n / 2 ^ (t + 1) * 2 ^ (t + 1) + 2 ^ t := h3
          _ = (2 * (n / 2 ^ (t + 1))).succ * 2 ^ t := by rw [Nat.succ_mul, pow_succ]; ring
    by_contra hb
    simp only [Bool.not_eq_false] at hb
    rw [hb, e] at h1
    simp only [if_true] at h1
    omega
  · rintro ⟨h, h2, h3⟩
    refine ⟨h, ?_, ?_⟩
    · rw [← h3]; exact Nat.div_mul_le_self a _
    · rw [← h3]
      rw [h2] at h1
      simp only [Bool.false_eq_true, if_false, Nat.add_zero] at h1
      have h4 : a < (a / 2 ^ t + 1) * 2 ^ t := by
        have := Nat.div_add_mod a (2 ^ t)
        have := Nat.mod_lt a hp'
        rw [Nat.add_mul, mul_comm (a / 2 ^ t)]; omega
      rw [h1] at h4
      rw [pow_succ]
      calc a < (2 * (a / 2 ^ (t + 1)) + 1) * 2 ^ t := h4
        _ = _ := by rw [pow_succ]; ring

theorem inTree_lt {n t a : Nat} (h : InTree n t a) : a < n := by
  have := treeStart_add_le h.1
  have := h.2.2
  omega

/-- Descending the bits of `n` from bit `k-1`: a leaf below `n` agreeing with `n` from bit `k`
on lies in a tree of height below `k`. -/
theorem exists_tree_below {n a : Nat} (han : a < n) : ∀ k, a / 2 ^ k = n / 2 ^ k →
    ∃ t, t < k ∧ InTree n t a := by
  intro k
  induction k with
  | zero => intro h; simp at h; omega
  | succ k ih =>
    intro h
    have h1 := testBit_div (n := a) (t := k)
    have h2 := testBit_div (n := n) (t := k)
    have hle : a / 2 ^ k ≤ n / 2 ^ k := Nat.div_le_div_right han.le
    cases hb : n.testBit k <;> cases ha : a.testBit k <;> rw [ha] at h1 <;> rw [hb] at h2 <;>
      simp only [if_true, if_false, Bool.false_eq_true] at h1 h2
    · obtain ⟨t, ht, hh⟩ := ih (by omega); exact ⟨t, by omega, hh⟩
    · omega
    · exact ⟨k, by omega, inTree_iff.2 ⟨hb, ha, h⟩⟩
    · obtain ⟨t, ht, hh⟩ := ih (by omega); exact ⟨t, by omega, hh⟩

theorem inTree_unique {n t s a : Nat} (h1 : InTree n t a) (h2 : InTree n s a) : t = s := by
  have key : ∀ {t s}, InTree n t a → InTree n s a → ¬ t < s := by
    intro t s h1 h2 hlt
    rw [inTree_iff] at h1 h2
    have : a.testBit s = n.testBit s := by
      have e1 : a.testBit s = (a / 2 ^ (t + 1)).testBit (s - (t + 1)) := by
        rw [Nat.testBit_div_two_pow]; congr 1; omega
      have e2 : n.testBit s = (n / 2 ^ (t + 1)).testBit (s - (t + 1)) := by
        rw [Nat.testBit_div_two_pow]; congr 1; omega
      rw [e1, e2, h1.2.2]
    rw [h2.1, h2.2.1] at this
    exact absurd this (by simp)
  have a1 := key h1 h2
  have a2 := key h2 h1
  omega

theorem exists_tree {n a : Nat} (h : a < n) : ∃ t, InTree n t a := by
  have hn : n < 2 ^ n := Nat.lt_two_pow_self
  obtain ⟨t, _, ht⟩ := exists_tree_below h n
    (by rw [Nat.div_eq_of_lt hn, Nat.div_eq_of_lt (lt_trans h hn)])
  exact ⟨t, ht⟩

/-- Trees are laid out from left to right, tallest first. -/
theorem treeStart_lt {n t s : Nat} (h : t < s) (hs : n.testBit s = true) :
    treeStart n s + 2 ^ s ≤ treeStart n t := by
  unfold treeStart
  have h1 : n / 2 ^ s = 2 * (n / 2 ^ (s + 1)) + 1 := by
    have := testBit_div (n := n) (t := s); rw [hs] at this; simpa using this
  obtain ⟨d, rfl⟩ : ∃ d, s = t + 1 + d := ⟨s - (t + 1), by omega⟩
  have h2 : n / 2 ^ (t + 1 + d) * 2 ^ d ≤ n / 2 ^ (t + 1) := by
    rw [pow_add, ← Nat.div_div_eq_div_mul]; exact Nat.div_mul_le_self _ _
  calc _ = (2 * (n / 2 ^ (t + 1 + d + 1)) + 1) * 2 ^ d * 2 ^ (t + 1) := by ring
    _ ≤ _ := by rw [← h1]; exact Nat.mul_le_mul_right _ h2

/-! ## Path -/

theorem mod_eq_of_bits {x y k : Nat} (h : x % 2 ^ (k + 1) = y % 2 ^ (k + 1)) :
    x % 2 ^ k = y % 2 ^ k := by
  rw [← Nat.mod_mod_of_dvd x (pow_dvd_pow 2 (by omega : k ≤ k + 1)), h,
    Nat.mod_mod_of_dvd y (pow_dvd_pow 2 (by omega : k ≤ k + 1))]

theorem pathLoop_eq {n r i R : Nat} (hR : R ≤ 63) (hr : r ≤ 63) (hin : (i + 1) * 2 ^ r ≤ n)
    (p : Nat) :
    ∀ (k fuel pos : Nat) (pre : List Nat), k ≤ R + 1 → k < fuel →
      pos < 2 ^ 64 →
      pos * 2 ^ r % 2 ^ k = i * 2 ^ r % 2 ^ k → pos % 2 ^ k = p % 2 ^ k →
      i * 2 ^ r / 2 ^ k = n / 2 ^ k →
      treeRows n (R + 1) = pre ++ treeRows n k →
      ∃ t pos', r ≤ t ∧ t < k ∧ InTree n t (i * 2 ^ r) ∧ pos' < 2 ^ 64 ∧
        pos' % 2 ^ (t + 1) = p % 2 ^ (t + 1) ∧
        ∃ bigger, (treeRows n (R + 1))[bigger]? = some t ∧
        St.pathLoop fuel n pos r (if k = 0 then 255 else k - 1) pre.length =
          .ok (bigger, t - r, not64 pos') := by
  intro k
  induction k with
  | zero =>
    intro fuel pos pre _ _ _ _ _ h5
    simp at h5
    have : 0 < 2 ^ r := by positivity
    rw [Nat.add_mul] at hin
    omega
  | succ k ih =>
    intro fuel pos pre hk hf hpos h3 h4 h5 h6
    obtain ⟨fuel, rfl⟩ : ∃ f, fuel = f + 1 := ⟨fuel - 1, by omega⟩
    simp only [Nat.add_eq_zero_iff, one_ne_zero, and_false, if_false, Nat.add_sub_cancel]
    have hA : i * 2 ^ r < n := by
      have : 0 < 2 ^ r := by positivity
      rw [Nat.add_mul] at hin; omega
    set A := i * 2 ^ r with hAdef
    have h1 := testBit_div (n := A) (t := k)
    have h2 := testBit_div (n := n) (t := k)
    have hle : A / 2 ^ k ≤ n / 2 ^ k := Nat.div_le_div_right hA.le
    -- the loop condition
    unfold St.pathLoop
    rw [shl64_ok (by omega), shl64_ok (by omega), shl64_ok (by omega)]
    simp only [ok_bind, one_mul, pow_mod_64 (by omega : k ≤ 63)]
    have hmask : sub64 (2 * 2 ^ k % 2 ^ 64) 1 = 2 ^ (k + 1) - 1 := by
      by_cases h63 : k = 63
      · subst h63; decide
      · have : 2 ^ (k + 1) ≤ 2 ^ 63 := Nat.pow_le_pow_right (by omega) (by omega)
        have h1 : 1 ≤ 2 ^ (k + 1) := Nat.one_le_two_pow
        rw [show 2 * 2 ^ k = 2 ^ (k + 1) by rw [pow_succ]; ring]
        rw [Nat.mod_eq_of_lt (by omega), sub64_ok h1 (by omega)]
    rw [hmask, and_mask, mod_64_mod (by omega), h3]
    have hts : 2 ^ k &&& n = if n.testBit k then 2 ^ k else 0 := by
      apply Nat.eq_of_testBit_eq; intro j
      rw [Nat.testBit_and, Nat.testBit_two_pow]
      by_cases hj : k = j
      · subst hj; cases h : n.testBit k <;> simp [Nat.testBit_two_pow_self]
      · cases h : n.testBit k <;> simp [hj]
    rw [hts]
    have hbit : ∀ x : Nat, x.testBit k = true ↔ 2 ^ k ≤ x % 2 ^ (k + 1) := by
      intro x
      have hx := testBit_div (n := x) (t := k)
      have e1 := Nat.div_add_mod x (2 ^ (k + 1))
      have e2 := Nat.div_add_mod x (2 ^ k)
      have e3 := Nat.mod_lt x (show 0 < 2 ^ k by positivity)
      have e4 : 2 ^ (k + 1) * (x / 2 ^ (k + 1)) = 2 ^ k * (2 * (x / 2 ^ (k + 1))) := by
        rw [pow_succ]; ring
      cases hb : x.testBit k <;> rw [hb] at hx <;>
        simp only [if_true, if_false, Bool.false_eq_true, Nat.add_zero] at hx
      · rw [hx] at e2; simp; omega
      · rw [hx, Nat.mul_add] at e2; simp; omega
    cases hb : n.testBit k
    · -- no tree of this height
      simp only [Bool.false_eq_true, if_false, ge_iff_le, Nat.zero_le, if_true, ne_eq,
        not_true_eq_false]
      cases ha : A.testBit k <;> rw [ha] at h1 <;> rw [hb] at h2 <;>
        simp only [if_true, if_false, Bool.false_eq_true] at h1 h2
      · obtain ⟨t, pos', q1, q2, q3, q4, q5, bg, q6, q7⟩ := ih fuel pos pre (by omega) (by omega) hpos
          (mod_eq_of_bits h3) (mod_eq_of_bits h4) (by omega)
          (by rw [h6, treeRows, if_neg (by simp [hb])])
        exact ⟨t, pos', q1, by omega, q3, q4, q5, bg, q6, q7⟩
      · omega
    · simp only [if_true]
      cases ha : A.testBit k
      · -- found
        have : ¬ 2 ^ k ≤ A % 2 ^ (k + 1) := by rw [← hbit]; simp [ha]
        rw [if_neg this]
        have hrk : r ≤ k := by
          by_contra hlt
          have hd : r = (k + 1) + (r - (k + 1)) := by omega
          have e1 : A / 2 ^ r = n / 2 ^ r := by
            rw [hd, pow_add, ← Nat.div_div_eq_div_mul, ← Nat.div_div_eq_div_mul, h5]
          have e2 : A / 2 ^ r = i := by rw [hAdef]; exact Nat.mul_div_cancel i (by positivity)
          have e3 : i + 1 ≤ n / 2 ^ r := (Nat.le_div_iff_mul_le (by positivity)).2 hin
          omega
        refine ⟨k, pos, hrk, by omega, inTree_iff.2 ⟨hb, ha, h5⟩, hpos, h4, pre.length, ?_, ?_⟩
        · rw [h6, treeRows, if_pos hb]; simp
        · simp only [pure_ok]
          rw [show (k + 256 - r) % 256 = k - r by omega]
      · have : 2 ^ k ≤ A % 2 ^ (k + 1) := by rw [← hbit]; exact ha
        rw [if_pos this]
        have hk0 : 2 ^ k ≠ 0 := by positivity
        simp only [ne_eq, hk0, not_false_eq_true, if_true]
        rw [ha] at h1; rw [hb] at h2
        simp only [if_true] at h1 h2
        have hsub : sub64 pos (2 ^ k) % 2 ^ k = pos % 2 ^ k := by
          unfold sub64
          rw [two64_eq, mod_64_mod (by omega)]
          have : 2 ^ 64 - 2 ^ k = 2 ^ k * (2 ^ (64 - k) - 1) := by
            rw [Nat.mul_sub, ← pow_add, show k + (64 - k) = 64 by omega, mul_one]
          rw [this]; simp
        obtain ⟨t, pos', q1, q2, q3, q4, q5, bg, q6, q7⟩ := ih fuel (sub64 pos (2 ^ k)) (pre ++ [k])
          (by omega) (by omega)
          (by unfold sub64; rw [two64_eq]; exact Nat.mod_lt _ (by positivity))
          (by rw [Nat.mul_mod, hsub, ← Nat.mul_mod]; exact mod_eq_of_bits h3)
          (by rw [hsub]; exact mod_eq_of_bits h4) (by omega)
          (by rw [h6, treeRows, if_pos hb]; simp)
        refine ⟨t, pos', q1, by omega, q3, q4, q5, bg, q6, ?_⟩
        simp only [List.length_append, List.length_singleton] at q7
        exact q7

theorem inForest_lt {n r i R : Nat} (hn : n ≤ 2 ^ R) (h : InForest n r i) : r ≤ R ∧ i < 2 ^ (R - r) := by
  unfold InForest at h
  have hp : 0 < 2 ^ r := by positivity
  have h1 : 2 ^ r ≤ 2 ^ R := by
    have : 2 ^ r ≤ (i + 1) * 2 ^ r := Nat.le_mul_of_pos_left _ (by omega)
    omega
  have hr : r ≤ R := (Nat.pow_le_pow_iff_right (by omega)).1 h1
  refine ⟨hr, ?_⟩
  have : (i + 1) * 2 ^ r ≤ 2 ^ (R - r) * 2 ^ r := by
    rw [← pow_add, show R - r + r = R by omega]; omega
  have := Nat.le_of_mul_le_mul_right this hp
  omega

theorem path_eq {n r i : Nat} (hn : n ≤ 2 ^ 63) (h : InForest n r i) :
    ∃ t bigger bits, r ≤ t ∧ InTree n t (i * 2 ^ r) ∧
      (treeRows n (St.numRows n + 1))[bigger]? = some t ∧
      (∀ j, j < t - r → bits.testBit j = !i.testBit j) ∧
      St.path n (posOf (St.numRows n) r i) = .ok (bigger, t - r, bits) := by
  have hn64 : n < 2 ^ 64 := by omega
  have hnR := le_two_pow_numRows hn64
  have hR := numRows_le_63 hn
  obtain ⟨hr, hi⟩ := inForest_lt hnR h
  unfold St.path
  rw [detectRow_posOf hR (by omega) hi]
  simp only [ok_bind]
  generalize St.numRows n = R at *
  have hlt := posOf_lt (R := R) (r := r) (by omega) (lt_of_row hi)
  have h64 : 2 ^ (R + 1) ≤ 2 ^ 64 := Nat.pow_le_pow_right (by omega) (by omega)
  have hnlt : n < 2 ^ (R + 1) := by have : 0 < 2 ^ R := by positivity
                                    rw [pow_succ]; omega
  have hA : i * 2 ^ r < n := by
    have : 0 < 2 ^ r := by positivity
    unfold InForest at h; rw [Nat.add_mul] at h; omega
  obtain ⟨t, pos', q1, q2, q3, q4, q5, bg, q6, q7⟩ := pathLoop_eq hR (by omega) h (posOf R r i)
    (R + 1) 66 (posOf R r i) [] le_rfl (by omega) (by omega)
    (by
      unfold posOf
      rw [rowStart_mul R r (by omega), Nat.add_mul]
      rw [show 2 ^ (R + 1 - r) * (2 ^ r - 1) * 2 ^ r = 2 ^ (R + 1) * (2 ^ r - 1) by
        rw [show R + 1 = R + 1 - r + r by omega, pow_add, Nat.add_sub_cancel]; ring]
      rw [Nat.mul_add_mod])
    rfl
    (by rw [Nat.div_eq_of_lt hnlt, Nat.div_eq_of_lt (by omega)])
    rfl
  refine ⟨t, bg, not64 pos', q1, q3, q6, ?_, ?_⟩
  · intro j hj
    have e1 : (not64 pos').testBit j = !pos'.testBit j := by
      unfold not64
      rw [show two64 - 1 - pos' = 2 ^ 64 - (pos' + 1) by rw [two64_eq]; omega]
      rw [Nat.testBit_two_pow_sub_succ q4]
      have : j < 64 := by omega
      simp [this]
    have e2 : pos'.testBit j = (posOf R r i).testBit j := by
      have := congrArg (fun x => x.testBit j) q5
      simp only [Nat.testBit_mod_two_pow] at this
      simpa [show j < t + 1 by omega] using this
    have e3 : (posOf R r i).testBit j = i.testBit j := by
      unfold posOf
      rw [rowStart_mul R r (by omega), Nat.testBit_two_pow_mul_add _ (lt_of_row hi),
        if_pos (by omega)]
    rw [e1, e2, e3]
  · simpa using q7

end Utreexo
