import Verif.Proof.Scan
import Mathlib.Algebra.BigOperators.Intervals
import Mathlib.Algebra.Order.BigOperators.Group.Finset

/-! # How many leaf positions the swaps of a deletion cover -/

set_option linter.unusedSectionVars false

namespace Utreexo
open Spec Equiv

theorem rowScan_posOps {n n' : ℕ} (hn : n ≤ 2 ^ 62) {D : List ℕ} {r : ℕ} (hr : r ≤ St.numRows n) {ρ : Perm ℕ} (hi : RowInv n n' D r)
    (hs : Sinks n n' D (r + 1) ρ) :
    rowScan n (posOps (St.numRows n) r (opsAt n n' D r ρ)) = (opsAt n n' D r ρ).length * (2 * 2 ^ r) := by
  have hb := (opsAt_ok hi hs).bound
  have hR := numRows_le_62 hn
  generalize opsAt n n' D r ρ = ops at hb
  unfold rowScan posOps
  induction ops with
  | nil => simp
  | cons o os ih =>
    rw [List.map_cons, List.map_cons, List.sum_cons, ih fun o ho => hb o (List.mem_cons_of_mem _ ho)]
    have h1 := detectRow_posOf (n := n) (by omega) (r := r) (i := o.1) (by omega) (lt_row hn hr (hb o (by simp)).1)
    unfold swapScan
    simp only [h1, List.length_cons]
    ring

/-- Leaf positions covered by the swaps of all rows. -/
def planScan (n : ℕ) (D : List ℕ) (R : ℕ) : ℕ :=
  ∑ c ∈ Finset.range R, (opsAt n (n - D.length) D c (sg n (n - D.length) D R (c + 1))).length * (2 * 2 ^ c)

theorem sum_list_range (f : ℕ → ℕ) : ∀ k, ((List.range' 0 k).map f).sum = ∑ c ∈ Finset.range k, f c := by
  intro k
  induction k with
  | zero => rfl
  | succ k ih => rw [List.range'_1_concat, List.map_append, List.sum_append, ih, Finset.sum_range_succ]; simp

theorem transform_scan {n : ℕ} (hn : n ≤ 2 ^ 62) {D : List ℕ} (hs : D.Pairwise (· < ·)) (hb : ∀ i ∈ D, i < n)
    {sws : List (List St.Swap)} (h : St.transform n D = .ok sws) : Acc.rowSum (rowScan n) sws = planScan n D (St.numRows n) := by
  have hnR : n ≤ 2 ^ St.numRows n := le_two_pow_numRows (by omega)
  have hlen : D.length ≤ n := by
    have := sorted_length_add_le D 0 n hs (fun x hx => ⟨Nat.zero_le _, hb x hx⟩) (Nat.zero_le _)
    omega
  have hi := rowInv hs hb (n' := n - D.length) (by omega)
  rw [transform_eq hn hs hb] at h
  cases h
  have hv := visited_le n D (St.numRows n) 0
  unfold Acc.rowSum planScan
  rw [List.map_map]
  have e1 : (List.range' 0 (visited n D (St.numRows n) 0)).map (rowScan n ∘ fun c => posOps (St.numRows n) c
        (opsAt n (n - D.length) D c (sg n (n - D.length) D (St.numRows n) (c + 1)))) =
      (List.range' 0 (visited n D (St.numRows n) 0)).map fun c =>
        (opsAt n (n - D.length) D c (sg n (n - D.length) D (St.numRows n) (c + 1))).length * (2 * 2 ^ c) := by
    apply List.map_congr_left
    intro c hc
    rw [List.mem_range'_1] at hc
    exact rowScan_posOps hn (by omega) (hi c) (sg_sinks hi hnR (by omega))
  rw [e1, sum_list_range]
  refine Finset.sum_subset (Finset.range_mono hv) fun c hc hc' => ?_
  rw [Finset.mem_range] at hc hc'
  rw [nil_opsAt hi hnR hc (visited_nil hi (St.numRows n) 0 c (by omega) (by omega))]
  simp

/-! ## At most -/

theorem covered_le {n k : ℕ} (hk : k ≤ n) (j : ℕ) : 2 ^ j * (n / 2 ^ j - (n - k) / 2 ^ j) ≤ k + (2 ^ j - 1) := by
  have h1 := Nat.div_add_mod n (2 ^ j)
  have h2 := Nat.div_add_mod (n - k) (2 ^ j)
  have h3 := Nat.mod_lt (n - k) (Nat.two_pow_pos j)
  rw [Nat.mul_sub]
  omega

theorem opsAt_length (n n' : ℕ) (D : List ℕ) (r : ℕ) (ρ : Perm ℕ) : (opsAt n n' D r ρ).length ≤ (Sn n D r).length + 1 := by
  unfold opsAt
  cases Xn n D r with
  | none => simp
  | some x =>
    simp only
    split <;> simp

theorem planScan_le {n : ℕ} {D : List ℕ} (hs : D.Pairwise (· < ·)) (hb : ∀ i ∈ D, i < n) (R : ℕ) :
    planScan n D R ≤ D.length * (R + 1) + 3 * (2 ^ R - 1) := by
  have hlen : D.length ≤ n := by
    have := sorted_length_add_le D 0 n hs (fun x hx => ⟨Nat.zero_le _, hb x hx⟩) (Nat.zero_le _)
    omega
  have hi := rowInv hs hb (n' := n - D.length) (by omega)
  have hd : ∀ j, 2 ^ j * (Dn n D j).length ≤ D.length + (2 ^ j - 1) := by
    intro j
    have h1 := covered_le hlen j
    have h2 := (hi j).count
    rwa [show n / 2 ^ j - (n - D.length) / 2 ^ j = (Dn n D j).length by omega] at h1
  have key : ∀ K, (∑ c ∈ Finset.range K, (Sn n D c).length * (2 * 2 ^ c)) + 2 ^ K * (Dn n D K).length ≤ D.length * (K + 1) + (2 ^ K - 1) := by
    intro K
    induction K with
    | zero => simp [Dn]
    | succ K ih =>
      rw [Finset.sum_range_succ]
      have h1 := Sn_length n D K
      have h2 := hd K
      have h3 := Nat.mul_le_mul_left (2 * 2 ^ K) h1
      have h4 : (2 * 2 ^ K) * ((Sn n D K).length + (Dn n D (K + 1)).length) =
          (Sn n D K).length * (2 * 2 ^ K) + 2 ^ (K + 1) * (Dn n D (K + 1)).length := by rw [pow_succ]; ring
      have h5 : 2 * 2 ^ K * (Dn n D K).length = 2 ^ K * (Dn n D K).length + 2 ^ K * (Dn n D K).length := by ring
      have h6 : D.length * (K + 1 + 1) = D.length * (K + 1) + D.length := by ring
      have h7 : 2 ^ (K + 1) = 2 ^ K + 2 ^ K := by rw [pow_succ]; ring
      have h8 := Nat.two_pow_pos K
      omega
  have hsum : planScan n D R ≤ (∑ c ∈ Finset.range R, (Sn n D c).length * (2 * 2 ^ c)) + ∑ c ∈ Finset.range R, 2 * 2 ^ c := by
    rw [← Finset.sum_add_distrib]
    refine Finset.sum_le_sum fun c _ => ?_
    have := Nat.mul_le_mul_right (2 * 2 ^ c) (opsAt_length n (n - D.length) D c (sg n (n - D.length) D R (c + 1)))
    rwa [Nat.add_mul, Nat.one_mul] at this
  have hgeo : ∀ K, (∑ c ∈ Finset.range K, 2 * 2 ^ c) = 2 * (2 ^ K - 1) := by
    intro K
    induction K with
    | zero => rfl
    | succ K ih =>
      rw [Finset.sum_range_succ, ih, pow_succ]
      have := Nat.two_pow_pos K
      omega
  have h1 := key R
  rw [hgeo R] at hsum
  omega

/-! ## One leaf -/

section Single
variable {n t z : ℕ}

theorem scanOne_row {m d : ℕ} (h : d < 2 * m) : rowS m false [d] = [] ∧ rowX m false [d] = some (d ^^^ 1) ∧ rowNext m false [d] = [d / 2] := by
  have e : rowTs m [d] = [d] := by simp [rowTs, h]
  unfold rowS rowX rowNext
  rw [e]
  refine ⟨?_, ?_, ?_⟩ <;> simp [idxNext, idxPairs, rowRP, oddLast]

theorem scanOne_last {m d : ℕ} (h : d < 2 * m) : rowS m true [d] = [(2 * m, d)] ∧ rowX m true [d] = none ∧ rowNext m true [d] = [] := by
  have e : rowTs m [d] = [d] := by simp [rowTs, h]
  have e2 : rowRP m true [d] = true := by
    unfold rowRP
    simp only [List.mem_singleton, Bool.true_and, Bool.not_eq_true', decide_eq_false_iff_not]
    omega
  unfold rowS rowX rowNext
  rw [e, e2]
  refine ⟨?_, ?_, ?_⟩ <;> simp [idxNext, idxPairs, oddLast]

theorem scanOne_root (m : ℕ) : rowS m true [2 * m] = [] ∧ rowX m true [2 * m] = none ∧ rowNext m true [2 * m] = [] := by
  have e : rowTs m [2 * m] = [] := by simp [rowTs]
  have e2 : rowRP m true [2 * m] = false := by simp [rowRP]
  unfold rowS rowX rowNext
  rw [e, e2]
  refine ⟨?_, ?_, ?_⟩ <;> simp [idxNext, idxPairs, oddLast]

theorem scanOne_Dn (ht : t < n) (hz : ∀ q, q < z → n.testBit q = false) : ∀ r, r ≤ z → Dn n [t] r = [t / 2 ^ r] := by
  intro r
  induction r with
  | zero => intro _; simp [Dn]
  | succ r ih =>
    intro hr
    have hd : t / 2 ^ r < 2 * (n / 2 ^ (r + 1)) := by
      have h1 := div_bit n r
      rw [hz r (by omega)] at h1
      have hi := (rowInv (n := n) (n' := n - 1) (D := [t]) (by simp) (by simpa using ht) (by simp; omega) r).bound
      rw [ih (by omega)] at hi
      have := hi _ (List.mem_singleton_self _)
      simp only [Bool.toNat_false] at h1
      omega
    rw [Dn, nextD, ih (by omega), hz r (by omega), (scanOne_row hd).2.2, Nat.div_div_eq_div_mul, ← pow_succ]
    rfl

theorem scanOne_bound (ht : t < n) (r : ℕ) (h : Dn n [t] r = [t / 2 ^ r]) : t / 2 ^ r < n / 2 ^ r := by
  have hi := (rowInv (n := n) (n' := n - 1) (D := [t]) (by simp) (by simpa using ht) (by simp; omega) r).bound
  rw [h] at hi
  exact hi _ (List.mem_singleton_self _)

theorem scanOne_colDst (ht : t < n) {r : ℕ} {ρ : Perm ℕ} (h : Dn n [t] (r + 1) = [t / 2 ^ (r + 1)]) (hs : Sinks n (n - 1) [t] (r + 1) ρ) :
    colDst (n - 1) r ρ = 2 * (t / 2 ^ (r + 1)) := by
  have hc := (rowInv (n := n) (n' := n - 1) (D := [t]) (by simp) (by simpa using ht) (by simp; omega) (r + 1)).count
  have hm := (hs.mem (t / 2 ^ (r + 1))).1 (by rw [h]; simp)
  rw [h] at hc
  simp only [List.length_singleton] at hc
  unfold colDst
  rw [Equiv.symm_apply_eq, up_apply, rootIdx_two, pow_one, Nat.mul_div_cancel_left _ (by omega), Nat.mul_mod_right]
  omega

theorem scanOne_ops (ht : t < n) (hz : ∀ q, q < z → n.testBit q = false) {r : ℕ} (hr : r < z) {ρ : Perm ℕ}
    (hs : Sinks n (n - 1) [t] (r + 1) ρ) : (opsAt n (n - 1) [t] r ρ).length = if t.testBit r then 0 else 1 := by
  have h0 := scanOne_Dn ht hz r (by omega)
  have hb := scanOne_bound ht r h0
  have h1 := div_bit n r
  rw [hz r hr] at h1
  simp only [Bool.toNat_false, Nat.add_zero] at h1
  have hc := scanOne_colDst ht (scanOne_Dn ht hz (r + 1) (by omega)) hs
  obtain ⟨e1, e2, -⟩ := scanOne_row (m := n / 2 ^ (r + 1)) (d := t / 2 ^ r) (by omega)
  have hd : t / 2 ^ r / 2 = t / 2 ^ (r + 1) := by rw [Nat.div_div_eq_div_mul, ← pow_succ]
  have hbit : t.testBit r = decide (t / 2 ^ r % 2 = 1) := by
    rw [Nat.testBit_eq_decide_div_mod_eq]
  unfold opsAt Sn Xn
  rw [h0, hz r hr, e1, e2]
  dsimp only
  rw [hc, ← hd, xor_one_cases, hbit]
  rcases Nat.mod_two_eq_zero_or_one (t / 2 ^ r) with h | h
  · simp only [h, if_true]
    rw [if_neg (by omega)]
    simp
  · simp only [h]
    rw [if_pos (by simp; omega)]
    simp

theorem scanOne_top (ht : t < n) (hz : ∀ q, q < z → n.testBit q = false) (hz' : n.testBit z = true) (ρ : Perm ℕ) :
    (opsAt n (n - 1) [t] z ρ).length = (if t + 2 ^ z < n then 1 else 0) ∧ Dn n [t] (z + 1) = [] := by
  have h0 := scanOne_Dn ht hz z le_rfl
  have hb := scanOne_bound ht z h0
  have h1 := div_bit n z
  rw [hz'] at h1
  simp only [Bool.toNat_true] at h1
  have hmod : n % 2 ^ z = 0 := by
    apply Nat.eq_of_testBit_eq
    intro i
    rw [Nat.testBit_mod_two_pow, Nat.zero_testBit]
    by_cases hi : i < z
    · simp [hi, hz i hi]
    · simp [hi]
  have hdm := Nat.div_add_mod n (2 ^ z)
  rw [hmod, Nat.add_zero] at hdm
  unfold opsAt Sn Xn
  rw [Dn, nextD, h0, hz']
  have hlt : t + 2 ^ z < n ↔ t / 2 ^ z < 2 * (n / 2 ^ (z + 1)) := by
    rw [Nat.div_lt_iff_lt_mul (Nat.two_pow_pos z)]
    have h2 : 2 * (n / 2 ^ (z + 1)) * 2 ^ z + 2 ^ z = n := by
      calc 2 * (n / 2 ^ (z + 1)) * 2 ^ z + 2 ^ z = 2 ^ z * (2 * (n / 2 ^ (z + 1)) + 1) := by ring
        _ = n := by rw [← h1]; exact hdm
    omega
  by_cases h : t / 2 ^ z < 2 * (n / 2 ^ (z + 1))
  · obtain ⟨e1, e2, e3⟩ := scanOne_last h
    rw [e1, e2, e3, if_pos (hlt.2 h)]
    exact ⟨rfl, rfl⟩
  · have hd : t / 2 ^ z = 2 * (n / 2 ^ (z + 1)) := by omega
    obtain ⟨e1, e2, e3⟩ := scanOne_root (n / 2 ^ (z + 1))
    rw [hd, e1, e2, e3, if_neg (fun h' => h (hlt.1 h'))]
    exact ⟨rfl, rfl⟩

theorem sum_zero_bits (t : ℕ) : ∀ z, (∑ r ∈ Finset.range z, (if t.testBit r then 0 else 1) * (2 * 2 ^ r)) + 2 * (t % 2 ^ z) = 2 * (2 ^ z - 1) := by
  intro z
  induction z with
  | zero => simp [Nat.mod_one]
  | succ z ih =>
    have := Nat.two_pow_pos z
    have hm : t % 2 ^ (z + 1) = t % 2 ^ z + 2 ^ z * (t / 2 ^ z % 2) := by rw [pow_succ, Nat.mod_mul]
    rw [Finset.sum_range_succ]
    generalize (∑ r ∈ Finset.range z, (if t.testBit r then 0 else 1) * (2 * 2 ^ r)) = S at ih ⊢
    rw [hm, pow_succ, Nat.testBit_eq_decide_div_mod_eq]
    rcases Nat.mod_two_eq_zero_or_one (t / 2 ^ z) with h | h <;> rw [h] <;> simp <;> omega

/-- Deleting one leaf: the smallest tree has `2 ^ z` leaves. -/
theorem planScan_single (ht : t < n) (hz : ∀ q, q < z → n.testBit q = false) (hz' : n.testBit z = true) {R : ℕ} (hR : n ≤ 2 ^ R) :
    planScan n [t] R = 2 * (2 ^ z - 1 - t % 2 ^ z) + if t + 2 ^ z < n then 2 * 2 ^ z else 0 := by
  have hi := rowInv (n := n) (n' := n - 1) (D := [t]) (by simp) (by simpa using ht) (by simp; omega)
  have hzn := Nat.ge_two_pow_of_testBit hz'
  have hzR : z ≤ R := (Nat.pow_le_pow_iff_right (by omega)).1 (hzn.trans hR)
  have low : ∑ c ∈ Finset.range z, (opsAt n (n - 1) [t] c (sg n (n - 1) [t] R (c + 1))).length * (2 * 2 ^ c) =
      ∑ r ∈ Finset.range z, (if t.testBit r then 0 else 1) * (2 * 2 ^ r) := by
    refine Finset.sum_congr rfl fun c hc => ?_
    rw [Finset.mem_range] at hc
    rw [scanOne_ops ht hz hc (sg_sinks hi hR (by omega))]
  have hsum := sum_zero_bits t z
  have hmod := Nat.mod_lt t (Nat.two_pow_pos z)
  have hpos := Nat.two_pow_pos z
  unfold planScan
  simp only [List.length_singleton]
  rcases Nat.lt_or_ge z R with h | h
  · have hsub : ∑ c ∈ Finset.range (z + 1), (opsAt n (n - 1) [t] c (sg n (n - 1) [t] R (c + 1))).length * (2 * 2 ^ c) =
        ∑ c ∈ Finset.range R, (opsAt n (n - 1) [t] c (sg n (n - 1) [t] R (c + 1))).length * (2 * 2 ^ c) := by
      refine Finset.sum_subset (Finset.range_mono h) fun c hc hc' => ?_
      rw [Finset.mem_range] at hc hc'
      rw [nil_opsAt hi hR hc (Dn_nil_mono hi (scanOne_top ht hz hz' 1).2 c (by omega))]
      simp
    rw [← hsub, Finset.sum_range_succ, low, (scanOne_top ht hz hz' _).1]
    split <;> omega
  · obtain rfl : z = R := by omega
    rw [low, if_neg (by omega)]
    omega

end Single

end Utreexo
