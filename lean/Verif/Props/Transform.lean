import Verif.Proof.Exec
import Verif.Props.State

/-!
# Properties of `ForestState::Transform` and `UndoTransform`: C06, C09
-/

namespace Utreexo
open Spec Equiv

/-! ## C09: the transformation moves exactly the deleted leaves to the end -/

/-- C09: for sane targets `Transform` returns rows of swaps between distinct nodes of the forest
on that row, and executing them moves leaf `π x` to slot `x` for a permutation `π` of the leaves
such that the last slots hold exactly the targets. -/
theorem C09_transform (n : Nat) (hn : n ≤ 2 ^ 62) (targets : List Nat)
    (hs : targets.Pairwise (· < ·)) (hb : ∀ t ∈ targets, t < n) :
    ∃ rows, St.transform n targets = .ok rows ∧ rows.length ≤ St.numRows n ∧
      (∀ r row, rows[r]? = some row → ∀ s ∈ row, ∃ i j, s.src = posOf (St.numRows n) r i ∧
        s.dst = posOf (St.numRows n) r j ∧ i ≠ j ∧ InForest n r i ∧ InForest n r j) ∧
      ∃ π : Perm ℕ,
        (∀ (α : Type) (f : ℕ → α), execRows (St.numRows n) 0
          (rows.map fun row => row.map fun s => (s.src, s.dst)) f = f ∘ π) ∧
        (∀ x, n ≤ x → π x = x) ∧
        (∀ x, x < n → (n - targets.length ≤ x ↔ π x ∈ targets)) := by
  have hnR : n ≤ 2 ^ St.numRows n := le_two_pow_numRows (by omega)
  have hlen : targets.length ≤ n := by
    have := sorted_length_add_le targets 0 n hs (fun x hx => ⟨Nat.zero_le _, hb x hx⟩) (Nat.zero_le _)
    omega
  have hi := rowInv hs hb (n' := n - targets.length) (by omega)
  have hv := visited_le n targets (St.numRows n) 0
  have hS := sg_sinks hi hnR (r := 0) (Nat.zero_le _)
  refine ⟨_, transform_eq hn hs hb, by simpa using hv, ?_, (sg n (n - targets.length) targets (St.numRows n) 0).symm,
    ?_, ?_, ?_⟩
  · intro r row hrow s hsr
    rw [List.getElem?_map] at hrow
    rcases Nat.lt_or_ge r (visited n targets (St.numRows n) 0) with hr | hr
    · rw [List.getElem?_range' hr] at hrow
      simp only [Option.map_some, Option.some.injEq, Nat.zero_add, Nat.one_mul] at hrow
      subst hrow
      unfold posOps at hsr
      obtain ⟨o, ho, rfl⟩ := List.mem_map.1 hsr
      obtain ⟨h1, h2, h3⟩ := (opsAt_ok (hi r) (sg_sinks hi hnR (by omega))).bound o ho
      exact ⟨o.1, o.2.1, rfl, rfl, h3, inForest_iff.2 h1, inForest_iff.2 h2⟩
    · rw [List.getElem?_eq_none (by simpa using hr)] at hrow
      simp at hrow
  · intro α f
    exact transform_exec hn hs hb (transform_eq hn hs hb) f
  · intro x hx
    rw [Equiv.symm_apply_eq]
    exact (hS.fix x (by simpa using hx)).symm
  · intro x hx
    have := hS.mem ((sg n (n - targets.length) targets (St.numRows n) 0).symm x)
    rw [Equiv.apply_symm_apply] at this
    simp only [Dn, pow_zero, Nat.div_one] at this
    rw [this]
    exact ⟨fun h => ⟨h, hx⟩, fun h => h.1⟩

/-- C09: the leaf range swaps of `UndoTransform` executed in order do the same as the swaps of
`Transform`, and executed in reverse order they put every leaf back. -/
theorem C09_undoTransform (n : Nat) (hn : n ≤ 2 ^ 62) (targets : List Nat)
    (hs : targets.Pairwise (· < ·)) (hb : ∀ t ∈ targets, t < n) :
    ∃ rows ranges, St.transform n targets = .ok rows ∧ St.undoTransform n targets = .ok ranges ∧
      (∀ s ∈ ranges, s.src + (if s.isRange then s.range else 1) ≤ n ∧
        s.dst + (if s.isRange then s.range else 1) ≤ n ∧
        (s.src + (if s.isRange then s.range else 1) ≤ s.dst ∨
          s.dst + (if s.isRange then s.range else 1) ≤ s.src)) ∧
      ∀ (α : Type) (f : ℕ → α),
        execRanges (ranges.map fun s => (s.src, s.dst, if s.isRange then s.range else 1)) f =
          execRows (St.numRows n) 0 (rows.map fun row => row.map fun s => (s.src, s.dst)) f ∧
        execRanges (ranges.reverse.map fun s => (s.src, s.dst, if s.isRange then s.range else 1))
          (execRows (St.numRows n) 0 (rows.map fun row => row.map fun s => (s.src, s.dst)) f) = f := by
  have hnR : n ≤ 2 ^ St.numRows n := le_two_pow_numRows (by omega)
  have hlen : targets.length ≤ n := by
    have := sorted_length_add_le targets 0 n hs (fun x hx => ⟨Nat.zero_le _, hb x hx⟩) (Nat.zero_le _)
    omega
  have hi := rowInv hs hb (n' := n - targets.length) (by omega)
  have hv := visited_le n targets (St.numRows n) 0
  refine ⟨_, _, transform_eq hn hs hb, undoTransform_eq hn hs hb, ?_, ?_⟩
  · intro s hsr
    obtain ⟨c, hc, hsr⟩ := List.mem_flatMap.1 hsr
    obtain ⟨o, ho, rfl⟩ := List.mem_map.1 hsr
    rw [List.mem_range'_1] at hc
    obtain ⟨h1, h2, h3⟩ := (opsAt_ok (hi c) (sg_sinks hi hnR (by omega))).bound o ho
    have e := asRange_leafOp (St.numRows n) c o
    unfold asRange at e
    simp only [Prod.mk.injEq] at e
    obtain ⟨e1, e2, e3⟩ := e
    rw [e1, e2, e3]
    have g1 := inForest_iff.2 h1
    have g2 := inForest_iff.2 h2
    unfold InForest at g1 g2
    have hp : 0 < 2 ^ c := by positivity
    refine ⟨by rw [add_mul, one_mul] at g1; exact g1, by rw [add_mul, one_mul] at g2; exact g2, ?_⟩
    rcases Nat.lt_or_gt_of_ne h3 with h | h
    · left; calc o.1 * 2 ^ c + 2 ^ c = (o.1 + 1) * 2 ^ c := by ring
        _ ≤ o.2.1 * 2 ^ c := Nat.mul_le_mul_right _ h
    · right; calc o.2.1 * 2 ^ c + 2 ^ c = (o.2.1 + 1) * 2 ^ c := by ring
        _ ≤ o.1 * 2 ^ c := Nat.mul_le_mul_right _ h
  · intro α f
    have E := execRanges_rows (St.numRows n)
      (fun c => opsAt n (n - targets.length) targets c (sg n (n - targets.length) targets (St.numRows n) (c + 1)))
      (visited n targets (St.numRows n) 0) 0 f
    refine ⟨E, ?_⟩
    rw [← E, List.map_reverse]
    apply execRanges_reverse
    intro s hsr
    obtain ⟨s', hs', rfl⟩ := List.mem_map.1 hsr
    obtain ⟨c, -, hsr⟩ := List.mem_flatMap.1 hs'
    obtain ⟨o, -, rfl⟩ := List.mem_map.1 hsr
    exact ⟨c, o.1, o.2.1, asRange_leafOp _ _ _⟩

/-- Eleven leaves, five of them deleted: the swaps and what they do to the leaves. -/
example : ∃ rows, St.transform 11 [0, 4, 5, 8, 9] = .ok rows ∧
    (List.range 11).map (execRows 4 0 (rows.map fun row => row.map fun s => (s.src, s.dst)) id) =
      [10, 1, 2, 3, 6, 7, 4, 5, 8, 9, 0] := by
  exact ⟨_, rfl, by decide⟩

/-! ## C06: the shifts are defined for up to `2^62` leaves -/

/-- C06: on every 64-bit position, inside the forest or not. -/
theorem C06_positions (n : Nat) (hn : n ≤ 2 ^ 62) (pos : Nat) :
    (∃ m, St.maxNodes n = .ok m) ∧
    (∃ row, St.detectRow n pos = .ok row ∧ row ≤ St.numRows n + 1) ∧
    (∃ off, St.rowOffset n pos = .ok off) ∧ (∃ p, St.parent n pos = .ok p) ∧
    (∃ p, St.leftChild n pos = .ok p) ∧ (∀ b, ∃ p, St.child n pos b = .ok p) ∧
    (∀ k, k ≤ St.numRows n + 1 → ∃ p, St.ancestor n pos k = .ok p) ∧
    (∀ k, k < 64 → ∃ p, St.leftDescendant n pos k = .ok p) ∧
    (∀ r, r < 64 → ∃ b, St.hasRoot n r = .ok b) ∧
    (∀ r, r ≤ St.numRows n → ∃ p, St.rootPosition n r = .ok p) := by
  have hR := numRows_le_62 hn
  have hM := maxNodes_eq (n := n) (by omega)
  have hD : ∃ row, St.detectRow n pos = .ok row ∧ row ≤ St.numRows n + 1 := by
    have key : ∀ k fuel row, k + 1 < fuel →
        ∃ v, St.detectRowLoop fuel pos (2 ^ k) row = .ok v ∧ v ≤ row + k + 1 := by
      intro k
      induction k with
      | zero =>
        intro fuel row hf
        obtain ⟨f, rfl⟩ : ∃ f, fuel = f + 2 := ⟨fuel - 2, by omega⟩
        rw [St.detectRowLoop]
        split
        · exact ⟨row, rfl, by omega⟩
        · rw [St.detectRowLoop, if_pos (by simp)]
          exact ⟨row + 1, rfl, by omega⟩
      | succ k ih =>
        intro fuel row hf
        obtain ⟨f, rfl⟩ : ∃ f, fuel = f + 1 := ⟨fuel - 1, by omega⟩
        rw [St.detectRowLoop]
        split
        · exact ⟨row, rfl, by omega⟩
        · rw [show 2 ^ (k + 1) >>> 1 = 2 ^ k by rw [Nat.shiftRight_eq_div_pow, pow_succ]; simp]
          obtain ⟨v, h1, h2⟩ := ih f (row + 1) (by omega)
          exact ⟨v, h1, by omega⟩
    unfold St.detectRow
    rw [shl64_ok (by omega), ok_bind, one_mul, pow_mod_64 (by omega)]
    obtain ⟨v, h1, h2⟩ := key (St.numRows n) 66 0 (by omega)
    exact ⟨v, h1, by omega⟩
  obtain ⟨row, hD1, hD2⟩ := hD
  have hP : ∃ p, St.parent n pos = .ok p := by
    unfold St.parent; rw [shl64_ok (by omega)]; exact ⟨_, rfl⟩
  have hL : ∃ p, St.leftChild n pos = .ok p := by
    unfold St.leftChild; rw [hM]; exact ⟨_, rfl⟩
  refine ⟨⟨_, hM⟩, ⟨row, hD1, hD2⟩, ?_, hP, hL, ?_, ?_, ?_, ?_, ?_⟩
  · unfold St.rowOffset
    rw [hD1, ok_bind, rowOffsetOfRow_eq (by omega) hD2 (by omega)]
    exact ⟨_, rfl⟩
  · intro b
    obtain ⟨p, hp⟩ := hL
    unfold St.child; rw [hp]; exact ⟨_, rfl⟩
  · intro k hk
    unfold St.ancestor
    by_cases h0 : k = 0
    · rw [if_pos h0]; exact ⟨_, rfl⟩
    · rw [if_neg h0]
      simp only
      rw [hM, ok_bind, shr64_ok (by omega), ok_bind,
        show ((St.numRows n : Int) - ((k : Int) - 1)) = ((St.numRows n + 1 - k : Nat) : Int) by omega,
        shl64_ok (by omega), ok_bind]
      exact ⟨_, rfl⟩
  · intro k hk
    unfold St.leftDescendant
    by_cases h0 : k = 0
    · rw [if_pos h0]; exact ⟨_, rfl⟩
    · rw [if_neg h0, hM, ok_bind, shl64_ok (by omega)]
      exact ⟨_, rfl⟩
  · intro r hr; exact ⟨_, hasRoot_eq hr⟩
  · intro r hr; exact ⟨_, rootPosition_eq hn hr⟩

/-- C06: `Path` and `RootIndex` on the nodes of the forest, the root positions, and everything
computed from sane targets. -/
theorem C06_forest (n : Nat) (hn : n ≤ 2 ^ 62) :
    (∀ r i, InForest n r i → (∃ p, St.path n (posOf (St.numRows n) r i) = .ok p) ∧
      ∃ k, St.rootIndex n (posOf (St.numRows n) r i) = .ok k) ∧
    (∃ ps, St.rootPositions n = .ok ps) ∧
    (∀ m, m ≤ n → ∃ ps, St.rootPositionsOf n m = .ok ps) ∧
    (∀ targets, targets.Pairwise (· < ·) → (∀ t ∈ targets, t < n) →
      (∃ p, St.proofPositions n targets = .ok p) ∧ (∃ s, St.transform n targets = .ok s) ∧
      ∃ s, St.undoTransform n targets = .ok s) := by
  refine ⟨?_, ?_, ?_, ?_⟩
  · intro r i h
    obtain ⟨t, tree, bits, -, -, -, -, h1, h2⟩ := C05_path n (by omega) r i h
    exact ⟨⟨_, h1⟩, ⟨_, h2⟩⟩
  · obtain ⟨ts, -, -, -, h⟩ := C04_rootPositions n hn
    exact ⟨_, h⟩
  · intro m hm
    exact ⟨_, C04_rootPositionsOf n m hn hm⟩
  · intro T hs hb
    obtain ⟨pf, comp, h, -⟩ := C08_proofPositions n hn T hs hb
    exact ⟨⟨_, h⟩, ⟨_, transform_eq hn hs hb⟩, ⟨_, undoTransform_eq hn hs hb⟩⟩

/-- C06: the bound is sharp: for every larger 64-bit leaf count `RowOffset` is undefined. -/
theorem C06_above (n : Nat) (h1 : 2 ^ 62 < n) (h2 : n < 2 ^ 64) : St.rowOffset n 0 = .error .ub := by
  have l1 : ¬ St.numRows n ≤ 62 := fun h => by have := (numRows_le_iff h2 62).1 h; omega
  have l2 : St.numRows n ≤ 64 := (numRows_le_iff h2 64).2 (by omega)
  rcases (show St.numRows n = 63 ∨ St.numRows n = 64 by omega) with h | h
  · unfold St.rowOffset St.detectRow St.rowOffsetOfRow St.maxNodes
    rw [h]; decide
  · unfold St.rowOffset St.detectRow
    rw [h]; rfl

/-- C06: above `2^63` leaves `Parent` is undefined for every position. -/
theorem C06_parent_above (n : Nat) (h1 : 2 ^ 63 < n) (h2 : n < 2 ^ 64) (pos : Nat) :
    St.parent n pos = .error .ub := by
  have l1 : ¬ St.numRows n ≤ 63 := fun h => by have := (numRows_le_iff h2 63).1 h; omega
  have l2 : St.numRows n ≤ 64 := (numRows_le_iff h2 64).2 (by omega)
  unfold St.parent
  rw [show St.numRows n = 64 by omega]
  rfl

example : (11 : Nat) ≤ 2 ^ 62 ∧ [0, 4, 5, 8, 9].Pairwise (· < ·) ∧ (∀ t ∈ [0, 4, 5, 8, 9], t < 11) := by
  decide

end Utreexo
