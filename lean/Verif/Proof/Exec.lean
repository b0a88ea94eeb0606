import Verif.Proof.Transform
import Verif.Spec.Transform

/-! # Executing the transformation -/

namespace Utreexo
open Spec Equiv

theorem swapBlocks_eq {α : Type} (r i j : Nat) (f : ℕ → α) :
    swapBlocks r i j f = f ∘ up r (swap i j) := by
  funext x
  unfold swapBlocks
  simp only [Function.comp]
  rw [up_swap_apply]
  split
  · rw [mul_comm]
  · split
    · rw [mul_comm]
    · rfl

theorem up_swap_symm (r i j : Nat) : (up r (swap i j)).symm = up r (swap i j) := by
  ext x; rfl

theorem posOf_zero (R i : Nat) : posOf R 0 i = i := by unfold posOf rowStart; omega

theorem posOf_sub (R r i : Nat) : posOf R r i - rowStart R r = i := by unfold posOf; omega

theorem execRow_eq {α : Type} (R r : Nat) : ∀ (ops : List (ℕ × ℕ)) (f : ℕ → α),
    execRow R r (ops.map fun o => (posOf R r o.1, posOf R r o.2)) f = f ∘ (up r (seqPerm ops)).symm := by
  intro ops
  induction ops with
  | nil => intro f; simp only [execRow, List.map_nil, List.foldl_nil, seqPerm_nil, up_one]; rfl
  | cons p ops ih =>
    intro f
    obtain ⟨i, j⟩ := p
    have I := ih (f ∘ up r (swap i j))
    unfold execRow at I ⊢
    rw [List.map_cons, List.foldl_cons]
    simp only [posOf_sub]
    rw [swapBlocks_eq, I, seqPerm, up_mul]
    rfl

theorem execRows_eq {α : Type} (n n' : Nat) (D : List Nat) (R : Nat) : ∀ (len r : Nat) (f : ℕ → α),
    r + len ≤ R → execRows R r ((List.range' r len).map fun c =>
      ((opsAt n n' D c (sg n n' D R (c + 1))).map fun o => (o.1, o.2.1)).map
        fun o => (posOf R c o.1, posOf R c o.2)) f =
      f ∘ ((up (r + len) (sg n n' D R (r + len))).symm * up r (sg n n' D R r)).symm := by
  intro len
  induction len with
  | zero =>
    intro r f _
    simp only [List.range'_zero, List.map_nil, execRows, Nat.add_zero]
    funext x
    simp only [Function.comp]
    congr 1
    rw [Equiv.eq_symm_apply, Perm.mul_apply, Equiv.symm_apply_apply]
  | succ len ih =>
    intro r f hr
    simp only [List.range'_succ, List.map_cons, execRows]
    rw [ih (r + 1) _ (by omega), execRow_eq, seqPerm_opsAt, show r + 1 + len = r + (len + 1) by omega]
    funext x
    simp only [Function.comp]
    congr 1
    rw [Equiv.eq_symm_apply, Perm.mul_apply, sg_step _ _ _ (show r < R by omega), up_mul, up_up,
      Perm.mul_apply, Equiv.apply_symm_apply, ← Perm.mul_apply, Equiv.apply_symm_apply]

/-- The rows of `Transform`, the permutation they perform and what the swaps connect. -/
theorem transform_exec {n : Nat} (hn : n ≤ 2 ^ 62) {D : List Nat} (hs : D.Pairwise (· < ·))
    (hb : ∀ i ∈ D, i < n) {rows : List (List St.Swap)} (ht : St.transform n D = .ok rows)
    {α : Type} (f : ℕ → α) :
    execRows (St.numRows n) 0 (rows.map fun row => row.map fun s => (s.src, s.dst)) f =
      f ∘ (sg n (n - D.length) D (St.numRows n) 0).symm := by
  have hnR : n ≤ 2 ^ St.numRows n := le_two_pow_numRows (by omega)
  rw [transform_eq hn hs hb] at ht
  injection ht with ht
  subst ht
  have hv := visited_le n D (St.numRows n) 0
  have hlen : D.length ≤ n := by
    have := sorted_length_add_le D 0 n hs (fun x hx => ⟨Nat.zero_le _, hb x hx⟩) (Nat.zero_le _)
    omega
  have hi := rowInv hs hb (n' := n - D.length) (by omega)
  have E := execRows_eq n (n - D.length) D (St.numRows n) (visited n D (St.numRows n) 0) 0 f (by omega)
  rw [List.map_map]
  have hmap : ((List.range' 0 (visited n D (St.numRows n) 0)).map
      ((fun row : List St.Swap => row.map fun s => (s.src, s.dst)) ∘ fun c => posOps (St.numRows n) c
        (opsAt n (n - D.length) D c (sg n (n - D.length) D (St.numRows n) (c + 1))))) =
      (List.range' 0 (visited n D (St.numRows n) 0)).map fun c =>
      ((opsAt n (n - D.length) D c (sg n (n - D.length) D (St.numRows n) (c + 1))).map
        fun o => (o.1, o.2.1)).map fun o => (posOf (St.numRows n) c o.1, posOf (St.numRows n) c o.2) := by
    apply List.map_congr_left
    intro c _
    simp only [Function.comp, posOps, List.map_map]
    rfl
  rw [hmap, E]
  have h1 : sg n (n - D.length) D (St.numRows n) (0 + visited n D (St.numRows n) 0) = 1 := by
    rw [Nat.zero_add]
    by_cases hjR : visited n D (St.numRows n) 0 = St.numRows n
    · exact sg_top _ _ _ (by omega)
    · exact nil_sg hi hnR (St.numRows n - visited n D (St.numRows n) 0) _ (by omega)
        (visited_nil hi (St.numRows n) 0 _ (by omega) (by omega))
  rw [h1, up_one, up_zero]
  rfl

/-! ## `UndoTransform` -/

/-- An operation as a swap of leaf ranges. -/
def leafOp (R r : Nat) (o : ℕ × ℕ × Bool) : St.Swap :=
  if r = 0 then { src := posOf R 0 o.1, dst := posOf R 0 o.2.1, collapse := o.2.2 }
  else { src := o.1 * 2 ^ r, dst := o.2.1 * 2 ^ r, isRange := true, range := 2 ^ r }

theorem toLeaves_eq {n r : Nat} (hn : n ≤ 2 ^ 62) (hr : r ≤ St.numRows n) {o : ℕ × ℕ × Bool}
    (h1 : o.1 < n / 2 ^ r) (h2 : o.2.1 < n / 2 ^ r) :
    St.toLeaves n { src := posOf (St.numRows n) r o.1, dst := posOf (St.numRows n) r o.2.1, collapse := o.2.2 } =
      .ok (leafOp (St.numRows n) r o) := by
  have hR := numRows_le_62 hn
  have l1 := lt_row hn hr h1
  have l2 := lt_row hn hr h2
  unfold St.toLeaves leafOp
  simp only
  rw [detectRow_posOf (by omega) (by omega) l1, ok_bind]
  by_cases h0 : r = 0
  · subst h0; rfl
  · rw [if_neg h0, if_neg h0]
    have e1 := leftDescendant_posOf (n := n) (by omega) (r := 0) (d := r) (i := o.1) (by omega)
      (by rw [Nat.zero_add]; exact l1)
    have e2 := leftDescendant_posOf (n := n) (by omega) (r := 0) (d := r) (i := o.2.1) (by omega)
      (by rw [Nat.zero_add]; exact l2)
    rw [Nat.zero_add] at e1 e2
    have h62 : (2:Nat) ^ r ≤ 2 ^ 62 := Nat.pow_le_pow_right (by omega) (by omega)
    rw [e1, ok_bind, e2, ok_bind, shl64_ok (by omega), ok_bind, pure_ok, one_mul,
      Nat.mod_eq_of_lt (by omega), posOf_zero, posOf_zero]

theorem undoRow_eq {n r : Nat} (hn : n ≤ 2 ^ 62) (hr : r ≤ St.numRows n) :
    ∀ (ops : List (ℕ × ℕ × Bool)),
    (∀ o ∈ ops, o.1 < n / 2 ^ r ∧ o.2.1 < n / 2 ^ r ∧ o.1 ≠ o.2.1) →
    St.undoRow n (posOps (St.numRows n) r ops) = .ok (ops.map (leafOp (St.numRows n) r)) := by
  intro ops
  induction ops with
  | nil => intro _; rfl
  | cons o ops ih =>
    intro h
    obtain ⟨h1, h2, h3⟩ := h o (by simp)
    have I := ih fun p hp => h p (by simp [hp])
    unfold posOps at I ⊢
    rw [List.map_cons, St.undoRow, if_neg (by simp [posOf_eq_iff, h3]), toLeaves_eq hn hr h1 h2, ok_bind,
      I]
    rfl

theorem undoTransform_eq {n : Nat} (hn : n ≤ 2 ^ 62) {D : List Nat} (hs : D.Pairwise (· < ·))
    (hb : ∀ i ∈ D, i < n) :
    St.undoTransform n D = .ok ((List.range' 0 (visited n D (St.numRows n) 0)).flatMap fun c =>
      (opsAt n (n - D.length) D c (sg n (n - D.length) D (St.numRows n) (c + 1))).map
        (leafOp (St.numRows n) c)) := by
  have hnR : n ≤ 2 ^ St.numRows n := le_two_pow_numRows (by omega)
  have hlen : D.length ≤ n := by
    have := sorted_length_add_le D 0 n hs (fun x hx => ⟨Nat.zero_le _, hb x hx⟩) (Nat.zero_le _)
    omega
  have hi := rowInv hs hb (n' := n - D.length) (by omega)
  have hv := visited_le n D (St.numRows n) 0
  unfold St.undoTransform
  rw [transform_eq hn hs hb, ok_bind]
  have key : ∀ len r, r + len ≤ St.numRows n →
      St.undoRows n ((List.range' r len).map fun c => posOps (St.numRows n) c
        (opsAt n (n - D.length) D c (sg n (n - D.length) D (St.numRows n) (c + 1)))) =
      .ok ((List.range' r len).flatMap fun c =>
        (opsAt n (n - D.length) D c (sg n (n - D.length) D (St.numRows n) (c + 1))).map
        (leafOp (St.numRows n) c)) := by
    intro len
    induction len with
    | zero => intro r _; rfl
    | succ len ih =>
      intro r hr
      simp only [List.range'_succ, List.map_cons, St.undoRows, List.flatMap_cons]
      rw [undoRow_eq hn (by omega) _ (opsAt_ok (hi r) (sg_sinks hi hnR (by omega))).bound, ok_bind,
        ih (r + 1) (by omega)]
      rfl
  exact key _ 0 (by omega)

/-- Range of a leaf swap as the caller reads it. -/
def asRange (s : St.Swap) : ℕ × ℕ × ℕ := (s.src, s.dst, if s.isRange then s.range else 1)

theorem asRange_leafOp (R r : Nat) (o : ℕ × ℕ × Bool) :
    asRange (leafOp R r o) = (o.1 * 2 ^ r, o.2.1 * 2 ^ r, 2 ^ r) := by
  unfold asRange leafOp
  by_cases h : r = 0
  · subst h; simp [posOf_zero]
  · simp [h]

theorem block_iff (i r x : ℕ) : (i * 2 ^ r ≤ x ∧ x < i * 2 ^ r + 2 ^ r) ↔ x / 2 ^ r = i := by
  rw [Nat.div_eq_iff (by positivity)]
  have : 0 < 2 ^ r := by positivity
  omega

theorem swapRanges_eq {α : Type} (r i j : ℕ) (f : ℕ → α) :
    swapRanges (i * 2 ^ r) (j * 2 ^ r) (2 ^ r) f = swapBlocks r i j f := by
  funext x
  unfold swapRanges swapBlocks
  simp only [block_iff]
  have hm := Nat.div_add_mod x (2 ^ r)
  split
  · rename_i h; subst h; congr 1; rw [mul_comm (x / 2 ^ r)]; omega
  · split
    · rename_i h; subst h; congr 1; rw [mul_comm (x / 2 ^ r)]; omega
    · rfl

theorem swapBlocks_invol {α : Type} (r i j : ℕ) (f : ℕ → α) : swapBlocks r i j (swapBlocks r i j f) = f := by
  rw [swapBlocks_eq, swapBlocks_eq]
  funext x
  simp only [Function.comp]
  rw [← Perm.mul_apply, ← up_mul, swap_mul_self, up_one]; rfl

theorem execRanges_append {α : Type} (a b : List (ℕ × ℕ × ℕ)) (f : ℕ → α) :
    execRanges (a ++ b) f = execRanges b (execRanges a f) := by
  unfold execRanges; rw [List.foldl_append]

theorem execRanges_reverse {α : Type} : ∀ (l : List (ℕ × ℕ × ℕ)) (f : ℕ → α),
    (∀ s ∈ l, ∃ r i j, s = (i * 2 ^ r, j * 2 ^ r, 2 ^ r)) →
    execRanges l.reverse (execRanges l f) = f := by
  intro l
  induction l with
  | nil => intro f _; rfl
  | cons s l ih =>
    intro f h
    obtain ⟨r, i, j, rfl⟩ := h s (by simp)
    rw [List.reverse_cons, execRanges_append]
    have h1 : execRanges ((i * 2 ^ r, j * 2 ^ r, 2 ^ r) :: l) f =
        execRanges l (swapBlocks r i j f) := by
      unfold execRanges
      rw [List.foldl_cons]; simp only [swapRanges_eq]
    rw [h1, ih _ fun p hp => h p (by simp [hp])]
    unfold execRanges
    simp only [List.foldl_cons, List.foldl_nil, swapRanges_eq, swapBlocks_invol]

theorem execRanges_row {α : Type} (R r : Nat) : ∀ (ops : List (ℕ × ℕ × Bool)) (f : ℕ → α),
    execRanges ((ops.map (leafOp R r)).map asRange) f =
      execRow R r ((posOps R r ops).map fun s => (s.src, s.dst)) f := by
  intro ops
  induction ops with
  | nil => intro f; rfl
  | cons o ops ih =>
    intro f
    have I := ih (swapBlocks r o.1 o.2.1 f)
    unfold execRanges execRow posOps at *
    simp only [List.map_cons, List.foldl_cons, asRange_leafOp, swapRanges_eq, posOf_sub]
    exact I

theorem execRanges_rows {α : Type} (R : Nat) (ops : Nat → List (ℕ × ℕ × Bool)) : ∀ (len r : Nat) (f : ℕ → α),
    execRanges (((List.range' r len).flatMap fun c => (ops c).map (leafOp R c)).map asRange) f =
      execRows R r (((List.range' r len).map fun c => posOps R c (ops c)).map
        fun row => row.map fun s => (s.src, s.dst)) f := by
  intro len
  induction len with
  | zero => intro r f; rfl
  | succ len ih =>
    intro r f
    simp only [List.range'_succ, List.flatMap_cons, List.map_append, List.map_cons, execRows]
    rw [execRanges_append, execRanges_row, ih]

end Utreexo
