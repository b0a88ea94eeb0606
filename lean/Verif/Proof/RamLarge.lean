import Verif.Proof.RamRemove

/-!
# Removing from forests of `2^32` leaves and more

`RamForest::SwapSubTrees` computes `1 << row` in `int`, so a swap of row 31 or above is undefined.
-/

set_option linter.unusedSectionVars false

namespace Utreexo
open Spec Equiv

/-- Deleting a single leaf of a forest whose smallest tree is of height above `k`. -/
theorem Dn_single {n k t : ℕ} (hn : n % 2 ^ k = 0) (ht : t < n) : ∀ r, r ≤ k → Dn n [t] r = [t / 2 ^ r] := by
  intro r
  induction r with
  | zero => intro _; simp [Dn]
  | succ r ih =>
    intro hr
    rw [Dn, ih (by omega)]
    unfold nextD rowNext
    have hdiv : 2 ^ (r + 1) ∣ n := dvd_trans (pow_dvd_pow 2 hr) (Nat.dvd_of_mod_eq_zero hn)
    obtain ⟨m, rfl⟩ := hdiv
    have hm : 2 ^ (r + 1) * m / 2 ^ (r + 1) = m := Nat.mul_div_cancel_left _ (by positivity)
    have hbit : (2 ^ (r + 1) * m).testBit r = false := by
      rw [Nat.testBit_eq_decide_div_mod_eq, show 2 ^ (r + 1) * m = 2 ^ r * (2 * m) by rw [pow_succ]; ring,
        Nat.mul_div_cancel_left _ (by positivity)]
      simp
    have hlt : t / 2 ^ r < 2 * m := by
      rw [Nat.div_lt_iff_lt_mul (by positivity)]
      calc t < _ := ht
        _ = _ := by rw [pow_succ]; ring
    rw [hm, hbit]
    have hts : rowTs m [t / 2 ^ r] = [t / 2 ^ r] := by simp [rowTs, hlt]
    rw [hts]
    have hid : idxNext [t / 2 ^ r] 0 = ([], [t / 2 ^ r]) := by simp [idxNext]
    rw [hid]
    simp [rowRP, oddLast, St.sortU64, St.insertSorted, Nat.div_div_eq_div_mul, pow_succ]

variable {H : Type} [DecidableEq H] [HashOps H]

namespace Ram

theorem swapSubTrees_ub (s : RamForest H) {n : ℕ} (hs : s.numLeaves = n) (hn : n ≤ 2 ^ 62)
    {r i j : ℕ} (hr : 31 ≤ r) (hi : i < n / 2 ^ r) (hj : j < n / 2 ^ r) :
    swapSubTrees s (posOf (St.numRows n) r i) (posOf (St.numRows n) r j) = .error .ub := by
  subst hs
  have hR := numRows_le_62 hn
  obtain ⟨r1, i1⟩ := row_le hn hi
  obtain ⟨-, i2⟩ := row_le hn hj
  have e1 := leftDescendant_posOf (n := s.numLeaves) (by omega) (r := 0) (d := r) (i := i) (by omega)
    (by rw [Nat.zero_add]; exact i1)
  have e2 := leftDescendant_posOf (n := s.numLeaves) (by omega) (r := 0) (d := r) (i := j) (by omega)
    (by rw [Nat.zero_add]; exact i2)
  rw [Nat.zero_add] at e1 e2
  unfold swapSubTrees
  rw [detectRow_posOf (by omega) (by omega) i1, ok_bind, detectRow_posOf (by omega) (by omega) i2, ok_bind,
    cassert_true (by simp), ok_bind, e1, ok_bind, e2, ok_bind]
  unfold shlInt
  rw [if_neg (by omega)]
  rfl

theorem runSwaps_ub {n : ℕ} (hn : n ≤ 2 ^ 62) {r : ℕ} (hr : 31 ≤ r) (ops : List (ℕ × ℕ × Bool)) (hne : ops ≠ [])
    (s : RamForest H) (c : ℕ → ℕ → H) (dirty : List (Option (RNode H)))
    (hb : ∀ o ∈ ops, o.1 < n / 2 ^ r ∧ o.2.1 < n / 2 ^ r ∧ o.1 ≠ o.2.1) (h : Holds s n c) :
    Acc.runSwaps vt (posOps (St.numRows n) r ops) s dirty = .error .ub := by
  cases ops with
  | nil => exact absurd rfl hne
  | cons o ops =>
    obtain ⟨b1, b2, b3⟩ := hb o (by simp)
    obtain ⟨m, u1, u2⟩ := updatePosSubtree_ok h hn b1 b2 b3
    unfold posOps
    rw [List.map_cons, Acc.runSwaps]
    simp only
    rw [u1, ok_bind]
    show (swapSubTrees _ _ _ >>= _) = _
    rw [swapSubTrees_ub { s with posmap := m } h.num hn hr b1 b2]
    rfl

theorem removeRows_ub {n n' : ℕ} {D : List ℕ} (hn62 : n ≤ 2 ^ 62) (hi : ∀ r, RowInv n n' D r) {q : ℕ}
    (hq : q < St.numRows n) (hq31 : 31 ≤ q) (hne : opsAt n n' D q (sg n n' D (St.numRows n) (q + 1)) ≠ []) :
    ∀ (k r m : ℕ) (s : RamForest H) (c : ℕ → ℕ → H) (Dt : List ℕ), k + r = St.numRows n → m ≤ k → r ≤ q →
    (∀ q, r + m ≤ q → q < St.numRows n → opsAt n n' D q (sg n n' D (St.numRows n) (q + 1)) = []) →
    Holds s n c → DirtInv n n' D (St.numRows n) r c Dt →
    Acc.removeRows vt n k ((List.range' r m).map fun q =>
        posOps (St.numRows n) q (opsAt n n' D q (sg n n' D (St.numRows n) (q + 1)))) s
        (Dt.map (dnode n (r + 1))) = .error .ub := by
  have hnR : n ≤ 2 ^ St.numRows n := le_two_pow_numRows (by omega)
  intro k
  induction k with
  | zero => intro r m s c Dt hk; omega
  | succ k ih =>
    intro r m s c Dt hk hm hrq hnil hH hJ
    have hr : r < St.numRows n := by omega
    have hops := opsAt_ok (hi r) (sg_sinks hi hnR (r := r + 1) hr)
    have hperm := seqPerm_opsAt n n' D r (sg n n' D (St.numRows n) (r + 1))
    set ops := opsAt n n' D r (sg n n' D (St.numRows n) (r + 1)) with hops_def
    have hhead : (((List.range' r m).map fun q =>
        posOps (St.numRows n) q (opsAt n n' D q (sg n n' D (St.numRows n) (q + 1)))).headD []) =
        posOps (St.numRows n) r ops := by
      cases m with
      | zero => rw [hops_def, hnil r (by omega) hr]; rfl
      | succ m => rfl
    have htail : (((List.range' r m).map fun q =>
        posOps (St.numRows n) q (opsAt n n' D q (sg n n' D (St.numRows n) (q + 1)))).tail) =
        (List.range' (r + 1) (m - 1)).map fun q =>
        posOps (St.numRows n) q (opsAt n n' D q (sg n n' D (St.numRows n) (q + 1))) := by
      cases m with
      | zero => rfl
      | succ m => rfl
    by_cases hbad : ops ≠ [] ∧ 31 ≤ r
    · have := runSwaps_ub hn62 hbad.2 ops hbad.1 s c ((Dt.map (dnode n (r + 1))).map some) hops.bound hH
      rw [Acc.removeRows, hhead, this]
      rfl
    have hrq' : r ≠ q := by
      rintro rfl
      exact hbad ⟨hne, hq31⟩
    obtain ⟨s1, a1, a2, a3⟩ := runSwaps_ok hn62 ops (fun h => by by_contra hc; exact hbad ⟨h, by omega⟩) s c
      ((Dt.map (dnode n (r + 1))).map some) hops.bound hH
    rw [hperm] at a2
    set Dt' := Dt ++ (ops.filter fun o => !o.2.2).map fun o => o.2.1 / 2 with hDt'
    have hDtm : ∀ d, d ∈ Dt' ↔ d ∈ Dt ∨ ∃ o ∈ ops, o.2.2 = false ∧ o.2.1 / 2 = d := by
      intro d
      rw [hDt', List.mem_append, List.mem_map]
      simp [and_assoc]
    have hDtb : ∀ d ∈ Dt', d < n / 2 ^ (r + 1) := by
      intro d hd
      rcases (hDtm d).1 hd with h | ⟨o, ho, hf, rfl⟩
      · exact hJ.bound d h
      · exact (hops.dst o ho hf).1
    obtain ⟨s2, N, b1, b2, b3, b4⟩ := rehashDirty_ok hn62 Dt' s1 _ [] hDtb a2
    have hJ' := dirt_step hi hnR hr hJ hDtm (next := N) (by intro d; rw [b4]; simp)
    have d1 := ih (r + 1) (m - 1) s2 _ N (by omega) (by omega) (by omega)
      (fun q hq hqR => hnil q (by omega) hqR) b2 hJ'
    rw [Acc.removeRows, hhead, htail, a1, ok_bind]
    simp only
    have e : (Dt.map (dnode (H := H) n (r + 1))).map some ++
        (ops.filter fun o => !o.2.2).map (fun o => some (dnode n (r + 1) (o.2.1 / 2))) =
        Dt'.map fun d => some (dnode n (r + 1) d) := by
      rw [hDt', List.map_append, List.map_map, List.map_map]; rfl
    rw [e]
    have b1' : Acc.rehashDirty vt n (Dt'.map fun d => some (dnode n (r + 1) d)) s1 [] = _ := b1
    rw [b1', ok_bind]
    exact d1

/-- `Remove` with a swap in a row of 31 or above. -/
theorem remove_ub {s : RamForest H} {n : ℕ} {f : ℕ → H} {D : List ℕ} (h : Inv s n f) (hn62 : n ≤ 2 ^ 62)
    (hs : D.Pairwise (· < ·)) (hb : ∀ i ∈ D, i < n) {q : ℕ} (hq : q < St.numRows n) (hq31 : 31 ≤ q)
    (hne : opsAt n (n - D.length) D q (sg n (n - D.length) D (St.numRows n) (q + 1)) ≠ []) :
    Acc.remove vt s D = .error .ub := by
  have hnR : n ≤ 2 ^ St.numRows n := le_two_pow_numRows (by omega)
  have hlen : D.length ≤ n := by
    have := sorted_length_add_le D 0 n hs (fun x hx => ⟨Nat.zero_le _, hb x hx⟩) (Nat.zero_le _)
    omega
  have hi := rowInv hs hb (n' := n - D.length) (by omega)
  have hD : D.length ≠ 0 := by
    intro hD
    have hD' : D = [] := List.eq_nil_of_length_eq_zero hD
    subst hD'
    exact hne (nil_opsAt hi hnR hq (Dn_nil_mono hi (r := 0) rfl q (by omega)))
  unfold Acc.remove
  rw [if_neg hD]
  obtain ⟨b, hb1, hb2⟩ := C07_checkTargetsSanity n D
  have hbt : b = true := hb2.2 ⟨hs, hb⟩
  subst hbt
  have hv := visited_le n D (St.numRows n) 0
  have hH : Holds s n (mt f) := ⟨h.num, h.cells, h.pos⟩
  have hJ : DirtInv n (n - D.length) D (St.numRows n) 0 (mt f) [] := by
    refine ⟨?_, ?_, by simp⟩
    · intro q hq x hx; rfl
    · intro q hq x hx; exact .inl rfl
  have a1 := removeRows_ub hn62 hi hq hq31 hne (St.numRows n) 0 (visited n D (St.numRows n) 0) s
    (mt f) [] (by omega) hv (by omega) (by
      intro q hq hqR
      exact nil_opsAt hi hnR hqR (visited_nil hi (St.numRows n) 0 q hq (by omega))) hH hJ
  simp only [h.num]
  rw [hb1, ok_bind]
  simp only [Bool.not_true, Bool.false_eq_true, if_false]
  rw [transform_eq hn62 hs hb, ok_bind]
  have a1' : Acc.removeRows vt n (St.numRows n) ((List.range' 0 (visited n D (St.numRows n) 0)).map fun q =>
    posOps (St.numRows n) q (opsAt n (n - D.length) D q (sg n (n - D.length) D (St.numRows n) (q + 1)))) s [] = _ := a1
  rw [a1']
  rfl

end Ram
end Utreexo
