import Verif.Proof.ProofPos

/-!
# Properties of `ForestState`: C01 - C05, C07, C08

Every theorem is about the model of the C++ functions (`Utreexo.St`) and is stated with the
vocabulary of `Verif/Spec/Forest.lean`.
-/

namespace Utreexo
open Spec

/-! ## C01: row and root counts -/

/-- C01: `NumRows()` is the least `h` with `n ≤ 2^h`, for every 64-bit leaf count. -/
theorem C01_numRows (n : Nat) (hn : n < 2 ^ 64) :
    n ≤ 2 ^ St.numRows n ∧ ∀ h, n ≤ 2 ^ h → St.numRows n ≤ h :=
  numRows_isRows hn

/-- C01: `NumRoots()` is the number of one bits, for every 64-bit leaf count. -/
theorem C01_numRoots (n : Nat) :
    St.numRoots n = ((List.range 64).filter fun t => n.testBit t).length :=
  popcountLoop_eq 64 n

/-- C01: `HasRoot(r)` is bit `r` of the leaf count. -/
theorem C01_hasRoot (n r : Nat) (hr : r < 64) : St.hasRoot n r = .ok (n.testBit r) :=
  hasRoot_eq hr

/-- C01: `MaxNodes()` is `2^(NumRows+1) - 1` for every leaf count up to `2^63`. -/
theorem C01_maxNodes (n : Nat) (hn : n ≤ 2 ^ 63) :
    St.maxNodes n = .ok (2 ^ (St.numRows n + 1) - 1) :=
  maxNodes_eq (numRows_le_63 hn)

example : St.numRows 5 = 3 ∧ St.numRoots 5 = 2 ∧ St.hasRoot 5 2 = .ok true ∧
    St.hasRoot 5 1 = .ok false ∧ St.maxNodes 5 = .ok 15 := by decide

/-! ## C02: positions and coordinates -/

/-- C02: the node with index `i` on row `r` is at `RowOffset(r) + i`, and `DetectRow` and
`RowOffset` recover its row and the row's start. -/
theorem C02_decode (n : Nat) (hn : n ≤ 2 ^ 62) (r i : Nat) (hr : r ≤ St.numRows n)
    (hi : i < 2 ^ (St.numRows n - r)) :
    ∃ off, St.rowOffsetOfRow n r = .ok off ∧ posOf (St.numRows n) r i = off + i ∧
      St.detectRow n (off + i) = .ok r ∧ St.rowOffset n (off + i) = .ok off := by
  have hR := numRows_le_62 hn
  refine ⟨_, rowOffsetOfRow_eq (by omega) (by omega) (by omega), rfl, ?_, ?_⟩
  · exact detectRow_posOf (by omega) (by omega) hi
  · exact rowOffset_posOf (by omega) (by omega) (by omega) hi

/-- C02: every position below `MaxNodes()` is the position of exactly one node. -/
theorem C02_bijective (n : Nat) (hn : n ≤ 2 ^ 62) (pos m : Nat) (hm : St.maxNodes n = .ok m)
    (h : pos < m) :
    ∃ r i, r ≤ St.numRows n ∧ i < 2 ^ (St.numRows n - r) ∧ pos = posOf (St.numRows n) r i ∧
      ∀ s j, s ≤ St.numRows n → j < 2 ^ (St.numRows n - s) → pos = posOf (St.numRows n) s j →
        s = r ∧ j = i := by
  have hR := numRows_le_62 hn
  rw [maxNodes_eq (by omega)] at hm
  injection hm with hm
  have h1 : rowStart (St.numRows n) (St.numRows n + 1) = 2 ^ (St.numRows n + 1) - 1 := by
    rw [rowStart_eq _ _ le_rfl]; simp
  obtain ⟨r, i, hr, hi, hp⟩ := exists_posOf (R := St.numRows n) (pos := pos) (St.numRows n)
    (by rw [h1]; omega)
  refine ⟨r, i, hr, hi, hp, ?_⟩
  intro s j _ hj he
  exact posOf_inj hj hi (he.symm.trans hp)

/-- C02: positions go row by row, so different nodes have different positions. -/
theorem C02_order (R r i s j : Nat) (hi : i < 2 ^ (R - r)) (h : r < s) :
    posOf R r i < posOf R s j :=
  posOf_lt_of_row_lt hi h

/-- Above `2^62` leaves `RowOffset` of a leaf is undefined behaviour (a shift by 64). -/
theorem C02_bound_sharp : St.rowOffset (2 ^ 62 + 1) 0 = .error .ub := by decide

example : (10 : Nat) ≤ 2 ^ 62 ∧ 2 ≤ St.numRows 10 ∧ 1 < 2 ^ (St.numRows 10 - 2) ∧
    posOf (St.numRows 10) 2 1 = 25 ∧ St.detectRow 10 25 = .ok 2 := by decide

/-! ## C03: navigation -/

/-- C03: `Parent`. -/
theorem C03_parent (n : Nat) (hn : n ≤ 2 ^ 63) (r i : Nat) (hr : r < St.numRows n)
    (hi : i < 2 ^ (St.numRows n - r)) :
    St.parent n (posOf (St.numRows n) r i) = .ok (posOf (St.numRows n) (r + 1) (i / 2)) :=
  parent_posOf (numRows_le_63 hn) hr.le (lt_of_row hi)

/-- C03: `LeftChild` and `Child`. -/
theorem C03_child (n : Nat) (hn : n ≤ 2 ^ 63) (r i : Nat) (hr : r < St.numRows n)
    (hi : i < 2 ^ (St.numRows n - (r + 1))) :
    St.leftChild n (posOf (St.numRows n) (r + 1) i) = .ok (posOf (St.numRows n) r (2 * i)) ∧
    ∀ b, b < 2 → St.child n (posOf (St.numRows n) (r + 1) i) b =
      .ok (posOf (St.numRows n) r (2 * i + b)) := by
  have hi' : i < 2 ^ (St.numRows n - r) :=
    lt_of_lt_of_le hi (Nat.pow_le_pow_right (by omega) (by omega))
  exact ⟨leftChild_posOf (numRows_le_63 hn) hr.le hi',
    fun b hb => child_posOf (numRows_le_63 hn) hr.le hi' hb⟩

/-- C03: `Sibling` is the other child of the parent, `RightSibling` the right child of the parent. -/
theorem C03_sibling (R r i b : Nat) (hr : r < R) (hb : b < 2) :
    St.sibling (posOf R r (2 * i + b)) = posOf R r (2 * i + (1 - b)) ∧
    St.rightSibling (posOf R r (2 * i + b)) = posOf R r (2 * i + 1) := by
  rw [sibling_posOf hr.le, rightSibling_posOf hr.le, xor_one_cases, or_one_cases]
  unfold posOf
  constructor <;> split <;> omega

/-- C03: `Cousin` is the node with the same placement under the sibling of the parent. -/
theorem C03_cousin (R r i c b : Nat) (hr : r + 1 < R) (hc : c < 2) (hb : b < 2) :
    St.cousin (posOf R r (2 * (2 * i + c) + b)) = posOf R r (2 * (2 * i + (1 - c)) + b) := by
  rw [cousin_posOf hr.le, xor_two_cases]
  unfold posOf
  split <;> omega

/-- Iterating a partial step `k` times. -/
def iter (f : Nat → Res Nat) : Nat → Nat → Res Nat
  | 0, x => .ok x
  | k + 1, x => do iter f k (← f x)

theorem iter_parent {n : Nat} (hR : St.numRows n ≤ 63) : ∀ k r i, r + k ≤ St.numRows n →
    i < 2 ^ (St.numRows n - r) →
    iter (St.parent n) k (posOf (St.numRows n) r i) = .ok (posOf (St.numRows n) (r + k) (i / 2 ^ k)) := by
  intro k
  induction k with
  | zero => intro r i _ _; simp [iter]
  | succ k ih =>
    intro r i hr hi
    rw [iter, parent_posOf hR (by omega) (lt_of_row hi), ok_bind]
    have hp : 2 ^ (St.numRows n - r) = 2 * 2 ^ (St.numRows n - (r + 1)) := by
      rw [← pow_succ', show St.numRows n - (r + 1) + 1 = St.numRows n - r by omega]
    rw [ih (r + 1) (i / 2) (by omega) (by omega), Nat.div_div_eq_div_mul, ← pow_succ']
    rw [show r + 1 + k = r + (k + 1) by omega]

theorem iter_leftChild {n : Nat} (hR : St.numRows n ≤ 63) : ∀ k r i, r + k ≤ St.numRows n →
    i < 2 ^ (St.numRows n - (r + k)) →
    iter (St.leftChild n) k (posOf (St.numRows n) (r + k) i) =
      .ok (posOf (St.numRows n) r (i * 2 ^ k)) := by
  intro k
  induction k with
  | zero => intro r i _ _; simp [iter]
  | succ k ih =>
    intro r i hr hi
    have hi' : i < 2 ^ (St.numRows n - (r + k)) :=
      lt_of_lt_of_le hi (Nat.pow_le_pow_right (by omega) (by omega))
    have hp : 2 ^ (St.numRows n - (r + k)) = 2 * 2 ^ (St.numRows n - (r + (k + 1))) := by
      rw [← pow_succ', show St.numRows n - (r + (k + 1)) + 1 = St.numRows n - (r + k) by omega]
    rw [iter, show r + (k + 1) = (r + k) + 1 by omega, leftChild_posOf hR (by omega) hi', ok_bind,
      ih r (2 * i) (by omega) (by omega)]
    rw [pow_succ]; congr 2; ring

/-- C03: `Ancestor(p, k)` is `Parent` iterated `k` times. -/
theorem C03_ancestor (n : Nat) (hn : n ≤ 2 ^ 63) (r i k : Nat) (hr : r + k ≤ St.numRows n)
    (hi : i < 2 ^ (St.numRows n - r)) :
    St.ancestor n (posOf (St.numRows n) r i) k = iter (St.parent n) k (posOf (St.numRows n) r i) ∧
    St.ancestor n (posOf (St.numRows n) r i) k =
      .ok (posOf (St.numRows n) (r + k) (i / 2 ^ k)) := by
  have h := ancestor_posOf (numRows_le_63 hn) hr (lt_of_row hi)
  exact ⟨by rw [h, iter_parent (numRows_le_63 hn) k r i hr hi], h⟩

/-- C03: `LeftDescendant(p, k)` is `LeftChild` iterated `k` times. -/
theorem C03_leftDescendant (n : Nat) (hn : n ≤ 2 ^ 63) (r i k : Nat) (hr : r + k ≤ St.numRows n)
    (hi : i < 2 ^ (St.numRows n - (r + k))) :
    St.leftDescendant n (posOf (St.numRows n) (r + k) i) k =
      iter (St.leftChild n) k (posOf (St.numRows n) (r + k) i) ∧
    St.leftDescendant n (posOf (St.numRows n) (r + k) i) k =
      .ok (posOf (St.numRows n) r (i * 2 ^ k)) := by
  have h := leftDescendant_posOf (numRows_le_63 hn) hr hi
  exact ⟨by rw [h, iter_leftChild (numRows_le_63 hn) k r i hr hi], h⟩

/-- Above `2^63` leaves `Parent` is undefined behaviour. -/
theorem C03_bound_sharp : St.parent (2 ^ 63 + 1) 0 = .error .ub := by decide

example : St.numRows 10 = 4 ∧ posOf 4 0 9 = 9 ∧ St.parent 10 9 = .ok 20 ∧
    St.ancestor 10 9 3 = .ok 29 ∧ St.leftDescendant 10 29 3 = .ok 8 ∧ St.cousin 9 = 11 := by decide

/-! ## C04: root positions -/

/-- C04: one root per one bit of the leaf count, tallest tree first, each at the top of its tree. -/
theorem C04_rootPositions (n : Nat) (hn : n ≤ 2 ^ 62) :
    ∃ ts : List Nat, ts.Pairwise (· > ·) ∧ (∀ t, t ∈ ts ↔ n.testBit t = true) ∧
      ts.length = St.numRoots n ∧
      St.rootPositions n = .ok (ts.map fun t => posOf (St.numRows n) t (treeStart n t / 2 ^ t)) := by
  have hR := numRows_le_62 hn
  have hlt : n < 2 ^ (St.numRows n + 1) := by
    have := le_two_pow_numRows (n := n) (by omega)
    have : 0 < 2 ^ St.numRows n := by positivity
    rw [pow_succ]; omega
  refine ⟨treeRows n (St.numRows n + 1), treeRows_sorted _ _, ?_, ?_, ?_⟩
  · intro t
    rw [mem_treeRows]
    constructor
    · exact fun h => h.2
    · intro h
      refine ⟨?_, h⟩
      by_contra hc
      rw [Nat.testBit_lt_two_pow (lt_of_lt_of_le hlt (Nat.pow_le_pow_right (by omega) (by omega)))] at h
      exact absurd h (by simp)
  · rw [← treeRows_ext (l := 64) (by omega) hlt, treeRows_length, C01_numRoots]
  · rw [rootPositions_eq hn]
    congr 1
    apply List.map_congr_left
    intro t _
    rw [← rootIdx_mul, Nat.mul_div_cancel _ (by positivity)]

/-- C04: the trees partition the leaves. -/
theorem C04_partition (n a : Nat) : a < n ↔ ∃ t, InTree n t a ∧ ∀ s, InTree n s a → s = t := by
  constructor
  · intro h
    obtain ⟨t, ht⟩ := exists_tree h
    exact ⟨t, ht, fun s hs => inTree_unique hs ht⟩
  · rintro ⟨t, ht, _⟩; exact inTree_lt ht

/-- C04: taller trees lie to the left. -/
theorem C04_leftToRight (n t s a b : Nat) (h : t < s) (ha : InTree n t a) (hb : InTree n s b) :
    b < a := by
  have := treeStart_lt h hb.1
  have := hb.2.2
  have := ha.2.1
  omega

/-- C04 for a smaller leaf count seen in the coordinates of a bigger forest, as used by
`RootPositions(num_leaves)`. -/
theorem C04_rootPositionsOf (n num : Nat) (hn : n ≤ 2 ^ 62) (h : num ≤ n) :
    St.rootPositionsOf n num = .ok ((treeRows num (St.numRows n + 1)).map
      fun t => posOf (St.numRows n) t (treeStart num t / 2 ^ t)) := by
  rw [rootPositionsOf_eq hn h]
  congr 1
  apply List.map_congr_left
  intro t _
  rw [← rootIdx_mul, Nat.mul_div_cancel _ (by positivity)]

theorem C04_bound_sharp : St.rootPositions (2 ^ 62 + 1) = .error .ub := by decide

example : St.rootPositions 5 = .ok [12, 4] ∧ St.rootPositionsOf 5 3 = .ok [8, 2] := by decide

/-! ## C05: paths -/

/-- C05: for every node of the forest, `Path` returns the index of its tree in `RootPositions`,
the distance to the tree's root, and the complemented turns from the root down to the node. -/
theorem C05_path (n : Nat) (hn : n ≤ 2 ^ 63) (r i : Nat) (h : InForest n r i) :
    ∃ t tree bits, r ≤ t ∧ InTree n t (i * 2 ^ r) ∧
      (treeRows n (St.numRows n + 1))[tree]? = some t ∧
      (∀ j, j < t - r → bits.testBit j = !i.testBit j) ∧
      St.path n (posOf (St.numRows n) r i) = .ok (tree, t - r, bits) ∧
      St.rootIndex n (posOf (St.numRows n) r i) = .ok tree := by
  obtain ⟨t, b, bits, h1, h2, h3, h4, h5⟩ := path_eq hn h
  exact ⟨t, b, bits, h1, h2, h3, h4, h5, by unfold St.rootIndex; rw [h5]; rfl⟩

/-- C05: the node below the root of its tree is reached from the root by the turns spelled by the
returned bits: the ancestor `t - r` rows up is the root. -/
theorem C05_path_reaches_root (n r i t : Nat) (hr : r ≤ t) (h : InTree n t (i * 2 ^ r)) :
    i / 2 ^ (t - r) = rootIdx n t := by
  obtain ⟨h1, h2, h3⟩ := inTree_iff.1 h
  have e := testBit_div (n := i * 2 ^ r) (t := t)
  rw [h2, h3] at e
  simp only [Bool.false_eq_true, if_false, Nat.add_zero] at e
  have : i * 2 ^ r / 2 ^ t = i / 2 ^ (t - r) := by
    rw [show (2:Nat) ^ t = 2 ^ r * 2 ^ (t - r) by rw [← pow_add]; congr 1; omega,
      ← Nat.div_div_eq_div_mul, Nat.mul_div_cancel _ (by positivity)]
  rw [← this, e]; unfold rootIdx; ring

example : InForest 11 1 4 ∧ posOf (St.numRows 11) 1 4 = 20 ∧
    (St.path 11 20).toOption.map (fun p => (p.1, p.2.1)) = some (1, 0) ∧
    InForest 11 0 2 ∧ (St.path 11 2).toOption.map (fun p => (p.1, p.2.1)) = some (0, 3) := by
  refine ⟨by unfold InForest; decide, by decide, by decide, by unfold InForest; decide, by decide⟩

/-! ## C07: target sanity -/

theorem isSortedNoDupes_eq : ∀ {l : List Nat}, l ≠ [] →
    ∃ b, St.isSortedNoDupes l = .ok b ∧ (b = true ↔ l.Pairwise (· < ·))
  | [], h => absurd rfl h
  | [a], _ => ⟨true, rfl, by simp⟩
  | a :: b :: rest, _ => by
    rw [St.isSortedNoDupes]
    by_cases h : a ≥ b
    · rw [if_pos h]
      refine ⟨false, rfl, ?_⟩
      constructor
      · intro h; exact absurd h (by simp)
      · intro hp
        have := (List.pairwise_cons.1 hp).1 b (by simp)
        omega
    · rw [if_neg h]
      obtain ⟨x, hx, hxx⟩ := isSortedNoDupes_eq (l := b :: rest) (by simp)
      refine ⟨x, hx, ?_⟩
      rw [hxx, List.pairwise_cons (a := a)]
      constructor
      · intro hp
        refine ⟨?_, hp⟩
        intro y hy
        rcases List.mem_cons.1 hy with rfl | hy
        · omega
        · have := (List.pairwise_cons.1 hp).1 y hy; omega
      · exact fun h => h.2

theorem sorted_length_le : ∀ {l : List Nat} {m n : Nat}, l.Pairwise (· < ·) →
    (∀ x ∈ l, m ≤ x ∧ x < n) → l.length ≤ n - m
  | [], _, _, _, _ => by simp
  | a :: l, m, n, hs, hb => by
    rw [List.pairwise_cons] at hs
    have ha := hb a (by simp)
    have := sorted_length_le (m := a + 1) (n := n) hs.2
      (fun x hx => ⟨hs.1 x hx, (hb x (by simp [hx])).2⟩)
    simp only [List.length_cons]
    omega

/-- C07: `CheckTargetsSanity` accepts exactly the strictly increasing lists of existing leaves,
and never misbehaves. -/
theorem C07_checkTargetsSanity (n : Nat) (targets : List Nat) :
    ∃ b, St.checkTargetsSanity n targets = .ok b ∧
      (b = true ↔ targets.Pairwise (· < ·) ∧ ∀ t ∈ targets, t < n) := by
  unfold St.checkTargetsSanity
  by_cases h0 : targets.length = 0
  · rw [if_pos h0]
    have : targets = [] := List.length_eq_zero_iff.1 h0
    subst this
    exact ⟨true, rfl, by simp⟩
  rw [if_neg h0]
  by_cases h1 : n < targets.length
  · rw [if_pos h1]
    refine ⟨false, rfl, ?_⟩
    constructor
    · intro h; exact absurd h (by simp)
    · rintro ⟨hs, hb⟩
      have := sorted_length_le (m := 0) (n := n) hs (fun x hx => ⟨by omega, hb x hx⟩)
      omega
  rw [if_neg h1]
  obtain ⟨b, hb, hbb⟩ := isSortedNoDupes_eq (l := targets) (by intro h; simp [h] at h0)
  rw [hb]
  simp only [ok_bind]
  cases b
  · exact ⟨false, rfl, by
      constructor
      · intro h; exact absurd h (by simp)
      · rintro ⟨hs, _⟩; exact absurd (hbb.2 hs) (by simp)⟩
  · have hs := hbb.1 rfl
    simp only [Bool.not_true, Bool.false_eq_true, if_false, pure_ok]
    rcases List.eq_nil_or_concat targets with rfl | ⟨l, x, rfl⟩
    · simp at h0
    · rw [List.concat_eq_append] at *
      simp only [List.getLast?_append, List.getLast?_singleton, Option.some_or]
      rw [List.pairwise_append] at *
      by_cases hx : x ≥ n
      · rw [if_pos hx]
        refine ⟨false, rfl, ?_⟩
        constructor
        · intro h; exact absurd h (by simp)
        · rintro ⟨_, hall⟩
          have := hall x (by simp)
          omega
      · rw [if_neg hx]
        refine ⟨true, rfl, ?_⟩
        simp only [true_iff]
        refine ⟨hs, ?_⟩
        intro t ht
        rcases List.mem_append.1 ht with ht | ht
        · have := hs.2.2 t ht x (by simp); omega
        · simp at ht; omega

example : St.checkTargetsSanity 8 [1, 3, 7] = .ok true ∧ St.checkTargetsSanity 8 [1, 3, 8] = .ok false ∧
    St.checkTargetsSanity 8 [3, 1] = .ok false ∧ St.checkTargetsSanity 8 [3, 3] = .ok false ∧
    St.checkTargetsSanity 8 [] = .ok true := by decide

/-! ## C08: proof positions -/

/-- C08. `comp` holds exactly the targets and their ancestors up to the roots, `pf` exactly the
siblings of non-root computed nodes that are not computed themselves. Both lists are strictly
increasing: in row order and without duplicates. -/
theorem C08_proofPositions (n : Nat) (hn : n ≤ 2 ^ 62) (targets : List Nat)
    (hs : targets.Pairwise (· < ·)) (hb : ∀ t ∈ targets, t < n) :
    ∃ pf comp, St.proofPositions n targets = .ok (pf, comp) ∧
      pf.Pairwise (· < ·) ∧ comp.Pairwise (· < ·) ∧
      (∀ p, p ∈ comp ↔ ∃ r a, a ∈ targets ∧ InForest n r (a / 2 ^ r) ∧
        p = posOf (St.numRows n) r (a / 2 ^ r)) ∧
      (∀ p, p ∈ pf ↔ ∃ r j b, b < 2 ∧ InForest n (r + 1) j ∧
        (∃ a ∈ targets, a / 2 ^ r = 2 * j + b) ∧ (∀ a ∈ targets, a / 2 ^ r ≠ 2 * j + (1 - b)) ∧
        p = posOf (St.numRows n) r (2 * j + (1 - b))) := by
  obtain ⟨pf, comp, h1, h2, h3, h4, h5⟩ := proofPositions_spec hn hs hb
  refine ⟨pf, comp, h1, h2, h3, ?_, ?_⟩
  · intro p
    rw [h4]
    constructor
    · rintro ⟨r, j, rfl, hf, a, ha, rfl⟩; exact ⟨r, a, ha, hf, rfl⟩
    · rintro ⟨r, a, ha, hf, rfl⟩; exact ⟨r, _, rfl, hf, a, ha, rfl⟩
  · intro p
    rw [h5]
    constructor
    · rintro ⟨r, j, rfl, ⟨hf, a, ha, rfl⟩, hroot, hsib⟩
      have hp := (inForest_parent_iff hf).2 hroot
      have hx : (a / 2 ^ r) ^^^ 1 = 2 * (a / 2 ^ r / 2) + (1 - a / 2 ^ r % 2) := by
        rw [xor_one_cases]; split <;> omega
      refine ⟨r, a / 2 ^ r / 2, a / 2 ^ r % 2, by omega, hp, ⟨a, ha, by omega⟩, ?_, by rw [hx]⟩
      intro a' ha' he
      apply hsib
      rw [hx]
      refine ⟨?_, a', ha', he⟩
      rw [inForest_iff] at *
      have : n / 2 ^ r / 2 = n / 2 ^ (r + 1) := by rw [Nat.div_div_eq_div_mul, pow_succ]
      omega
    · rintro ⟨r, j, b, hb2, hf, ⟨a, ha, he⟩, hno, rfl⟩
      have hf' : InForest n r (2 * j + b) := by
        rw [inForest_iff] at *
        have : n / 2 ^ r / 2 = n / 2 ^ (r + 1) := by rw [Nat.div_div_eq_div_mul, pow_succ]
        omega
      have hx : (2 * j + b) ^^^ 1 = 2 * j + (1 - b) := by
        rw [xor_one_cases]; split <;> omega
      refine ⟨r, 2 * j + b, by rw [hx], ⟨hf', a, ha, he⟩, ?_, ?_⟩
      · exact (inForest_parent_iff hf').1 (by rw [show (2 * j + b) / 2 = j by omega]; exact hf)
      · rw [hx]; rintro ⟨_, a', ha', he'⟩; exact hno a' ha' he'

example : St.proofPositions 11 [0, 4, 5, 9, 10] = .ok ([1, 8, 17, 19], [0, 4, 5, 9, 10, 16, 18, 20, 24, 25, 28]) := by
  decide

end Utreexo
