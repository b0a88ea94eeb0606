import Verif.Proof.Roots

/-! # `ProofPositions` in (row, index) coordinates -/

namespace Utreexo
open Spec

/-- Pairing of a sorted list of indexes: proof indexes and parent indexes. -/
def pairRow : List Nat → List Nat × List Nat
  | [] => ([], [])
  | [a] => ([a ^^^ 1], [a / 2])
  | a :: b :: rest =>
    if a ||| 1 = b then ((pairRow rest).1, a / 2 :: (pairRow rest).2)
    else ((a ^^^ 1) :: (pairRow (b :: rest)).1, a / 2 :: (pairRow (b :: rest)).2)

theorem rightSibling_eq_iff {R r a b : Nat} (hr : r ≤ R) :
    St.rightSibling (posOf R r a) = posOf R r b ↔ a ||| 1 = b := by
  rw [rightSibling_posOf hr]; unfold posOf; omega

theorem rightSibling_eq_iff' {R r a b : Nat} (hr : r ≤ R) :
    St.rightSibling (posOf R r a) = St.rightSibling (posOf R r b) ↔ a ||| 1 = b ||| 1 := by
  rw [rightSibling_posOf hr, rightSibling_posOf hr]; unfold posOf; omega

theorem cousin_eq_iff {R r a b : Nat} (hr : r + 1 ≤ R) :
    St.cousin (St.rightSibling (posOf R r a)) = St.rightSibling (posOf R r b) ↔
      (a ||| 1) ^^^ 2 = b ||| 1 := by
  rw [rightSibling_posOf (by omega), rightSibling_posOf (by omega), cousin_posOf hr]
  unfold posOf; omega

theorem cousin_iff_of_lt {a b : Nat} (h : a < b) :
    (a ||| 1) ^^^ 2 = b ||| 1 ↔ a / 2 % 2 = 0 ∧ b / 2 = a / 2 + 1 := by
  rw [xor_two_cases, or_one_cases, or_one_cases]
  split <;> split <;> split <;> omega

theorem or_one_iff_of_lt {a b : Nat} (h : a < b) : a ||| 1 = b ↔ a % 2 = 0 ∧ b = a + 1 := by
  rw [or_one_cases]; split <;> omega

theorem or_one_iff' {a b : Nat} : b ||| 1 = a ||| 1 ↔ a / 2 = b / 2 := by
  rw [or_one_cases, or_one_cases]; split <;> split <;> omega

theorem pairRow_cons_ne {a b : Nat} {rest : List Nat} (h : ¬ a ||| 1 = b) :
    pairRow (a :: b :: rest) =
      ((a ^^^ 1) :: (pairRow (b :: rest)).1, a / 2 :: (pairRow (b :: rest)).2) := by
  rw [pairRow, if_neg h]

theorem pairRow_cons_eq {a b : Nat} {rest : List Nat} (h : a ||| 1 = b) :
    pairRow (a :: b :: rest) = ((pairRow rest).1, a / 2 :: (pairRow rest).2) := by
  rw [pairRow, if_pos h]

theorem proofRow_eq {n r : Nat} (hR : St.numRows n ≤ 63) (hr : r + 1 ≤ St.numRows n) :
    ∀ (m : Nat) (T : List Nat), T.length ≤ m → T.Pairwise (· < ·) →
      (∀ j ∈ T, j < 2 ^ (St.numRows n - r)) →
      St.proofRow n (T.map (posOf (St.numRows n) r)) =
        .ok ((pairRow T).1.map (posOf (St.numRows n) r),
          (pairRow T).2.map (posOf (St.numRows n) (r + 1))) := by
  set R := St.numRows n with hRdef
  have hpar : ∀ j, j < 2 ^ (R - r) → St.parent n (posOf R r j) = .ok (posOf R (r + 1) (j / 2)) :=
    fun j hj => parent_posOf hR (by omega) (lt_of_row hj)
  have hsib : ∀ j, St.sibling (posOf R r j) = posOf R r (j ^^^ 1) :=
    fun j => sibling_posOf (by omega)
  have hrs : ∀ a b, (St.rightSibling (posOf R r a) = posOf R r b) = (a ||| 1 = b) :=
    fun a b => propext (rightSibling_eq_iff (by omega))
  have hrs' : ∀ a b, (St.rightSibling (posOf R r a) = St.rightSibling (posOf R r b)) = (a ||| 1 = b ||| 1) :=
    fun a b => propext (rightSibling_eq_iff' (by omega))
  have hco : ∀ a b, (St.cousin (St.rightSibling (posOf R r a)) = St.rightSibling (posOf R r b)) =
      ((a ||| 1) ^^^ 2 = b ||| 1) := fun a b => propext (cousin_eq_iff hr)
  intro m
  induction m with
  | zero =>
    intro T h _ _
    have : T = [] := List.length_eq_zero_iff.1 (by omega)
    subst this; rfl
  | succ m ih =>
    intro T hlen hs hb
    match T, hlen, hs, hb with
    | [], _, _, _ => rfl
    | [a], _, _, hb =>
      simp only [List.map, St.proofRow, hpar a (hb a (by simp)), ok_bind, pure_ok, hsib, pairRow]
    | [a, b], hlen, hs, hb =>
      have hab : a < b := by simp at hs; omega
      simp only [List.map, St.proofRow, hrs, hco, cousin_iff_of_lt hab, or_one_iff_of_lt hab]
      have pa := hpar a (hb a (by simp))
      have pb := hpar b (hb b (by simp))
      by_cases h1 : a % 2 = 0 ∧ b = a + 1
      · rw [if_pos h1, pairRow_cons_eq ((or_one_iff_of_lt hab).2 h1)]
        simp only [pa, ok_bind, pure_ok]; rfl
      · rw [if_neg h1, pairRow_cons_ne (fun h => h1 ((or_one_iff_of_lt hab).1 h))]
        simp only [pa, pb, ok_bind, pure_ok, hsib, pairRow, List.map]
        split <;> rfl
    | [a, b, c], hlen, hs, hb =>
      simp only [List.map]
      rw [St.proofRow]
      have hab : a < b := by simp at hs; omega
      have hbc : b < c := by simp at hs; omega
      have hac : a < c := by omega
      simp only [hrs, hco, hrs', cousin_iff_of_lt hab, cousin_iff_of_lt hac, or_one_iff_of_lt hab, or_one_iff']
      have pa := hpar a (hb a (by simp))
      have pb := hpar b (hb b (by simp))
      have pc := hpar c (hb c (by simp))
      have ihc := ih [c] (by simp at hlen ⊢; omega) (by simp) (by intro j hj; exact hb j (by simp at hj; simp [hj]))
      have ihbc := ih [b, c] (by simp at hlen ⊢; omega) (by simp [hbc])
        (by intro j hj; exact hb j (by simp at hj; rcases hj with h | h <;> simp [h]))
      simp only [List.map] at ihc ihbc
      by_cases h1 : a / 2 % 2 = 0 ∧ c / 2 = a / 2 + 1
      · rw [if_pos h1]
        by_cases h2 : a / 2 = b / 2
        · rw [if_pos h2, pairRow_cons_eq ((or_one_iff_of_lt hab).2 (by omega))]
          simp only [pa, pc, ok_bind, pure_ok, hsib, pairRow, List.map]
        · rw [if_neg h2, pairRow_cons_ne (fun h => h2 (by have := (or_one_iff_of_lt hab).1 h; omega)),
            pairRow_cons_eq ((or_one_iff_of_lt hbc).2 (by omega))]
          simp only [pa, pc, ok_bind, pure_ok, hsib, pairRow, List.map]
          rw [show b / 2 = c / 2 by omega]
      · rw [if_neg h1]
        by_cases h3 : a % 2 = 0 ∧ b = a + 1
        · rw [if_pos h3, pairRow_cons_eq ((or_one_iff_of_lt hab).2 h3)]
          simp only [pa, ihc, ok_bind, pure_ok, List.map]
        · rw [if_neg h3, pairRow_cons_ne (fun h => h3 ((or_one_iff_of_lt hab).1 h))]
          by_cases h4 : a / 2 % 2 = 0 ∧ b / 2 = a / 2 + 1
          · rw [if_pos h4, pairRow_cons_ne (fun h => h1 (by
              have := (or_one_iff_of_lt hbc).1 h; omega))]
            simp only [pa, pb, ihc, ok_bind, pure_ok, hsib, List.map]
          · rw [if_neg h4]
            simp only [pa, ihbc, ok_bind, pure_ok, hsib, List.map]
    | a :: b :: c :: d :: rest, hlen, hs, hb =>
      simp only [List.map_cons]
      rw [St.proofRow]
      have hab : a < b := by simp at hs; omega
      have hbc : b < c := by simp at hs; omega
      have hcd : c < d := by simp at hs; omega
      have hac : a < c := by omega
      have had : a < d := by omega
      simp only [hrs, hco, hrs', cousin_iff_of_lt hab, cousin_iff_of_lt hac, cousin_iff_of_lt had,
        or_one_iff_of_lt hab, or_one_iff']
      have pa := hpar a (hb a (by simp))
      have pb := hpar b (hb b (by simp))
      have pc := hpar c (hb c (by simp))
      have pd := hpar d (hb d (by simp))
      have s1 : (b :: c :: d :: rest).Pairwise (· < ·) := (List.pairwise_cons.1 hs).2
      have s2 : (c :: d :: rest).Pairwise (· < ·) := (List.pairwise_cons.1 s1).2
      have s3 : (d :: rest).Pairwise (· < ·) := (List.pairwise_cons.1 s2).2
      have s4 : rest.Pairwise (· < ·) := (List.pairwise_cons.1 s3).2
      simp only [List.length_cons] at hlen
      have ih1 := ih (b :: c :: d :: rest) (by simp; omega) s1 (fun j hj => hb j (by simp at hj ⊢; tauto))
      have ih2 := ih (c :: d :: rest) (by simp; omega) s2 (fun j hj => hb j (by simp at hj ⊢; tauto))
      have ih3 := ih (d :: rest) (by simp; omega) s3 (fun j hj => hb j (by simp at hj ⊢; tauto))
      have ih4 := ih rest (by omega) s4 (fun j hj => hb j (by simp at hj ⊢; tauto))
      simp only [List.map_cons] at ih1 ih2 ih3
      by_cases h0 : a / 2 % 2 = 0 ∧ d / 2 = a / 2 + 1
      · rw [if_pos h0, pairRow_cons_eq ((or_one_iff_of_lt hab).2 (by omega)),
          pairRow_cons_eq ((or_one_iff_of_lt hcd).2 (by omega))]
        simp only [pa, pd, ih4, ok_bind, pure_ok, List.map_cons]
        rw [show c / 2 = d / 2 by omega]
      rw [if_neg h0]
      by_cases h1 : a / 2 % 2 = 0 ∧ c / 2 = a / 2 + 1
      · rw [if_pos h1]
        have hcd' : ¬ c ||| 1 = d := fun h => h0 (by have := (or_one_iff_of_lt hcd).1 h; omega)
        by_cases h2 : a / 2 = b / 2
        · rw [if_pos h2, pairRow_cons_eq ((or_one_iff_of_lt hab).2 (by omega)),
            pairRow_cons_ne hcd']
          simp only [pa, pc, ih3, ok_bind, pure_ok, hsib, List.map_cons]
        · rw [if_neg h2, pairRow_cons_ne (fun h => h2 (by have := (or_one_iff_of_lt hab).1 h; omega)),
            pairRow_cons_eq ((or_one_iff_of_lt hbc).2 (by omega))]
          simp only [pa, pc, ih3, ok_bind, pure_ok, hsib, List.map_cons]
          rw [show b / 2 = c / 2 by omega]
      · rw [if_neg h1]
        by_cases h3 : a % 2 = 0 ∧ b = a + 1
        · rw [if_pos h3, pairRow_cons_eq ((or_one_iff_of_lt hab).2 h3)]
          simp only [pa, ih2, ok_bind, pure_ok, List.map_cons]
        · rw [if_neg h3, pairRow_cons_ne (fun h => h3 ((or_one_iff_of_lt hab).1 h))]
          by_cases h4 : a / 2 % 2 = 0 ∧ b / 2 = a / 2 + 1
          · rw [if_pos h4, pairRow_cons_ne (fun h => h1 (by
              have := (or_one_iff_of_lt hbc).1 h; omega))]
            simp only [pa, pb, ih2, ok_bind, pure_ok, hsib, List.map_cons]
          · rw [if_neg h4]
            simp only [pa, ih1, ok_bind, pure_ok, hsib, List.map_cons]

/-! ## What pairing computes -/

theorem pairRow_spec : ∀ (m : Nat) (T : List Nat), T.length ≤ m → T.Pairwise (· < ·) →
    (∀ j, j ∈ (pairRow T).2 ↔ ∃ a ∈ T, a / 2 = j) ∧ (pairRow T).2.Pairwise (· < ·) ∧
    (∀ j, j ∈ (pairRow T).1 ↔ (j ^^^ 1) ∈ T ∧ j ∉ T) ∧ (pairRow T).1.Pairwise (· < ·) := by
  intro m
  induction m with
  | zero =>
    intro T h _
    have : T = [] := List.length_eq_zero_iff.1 (by omega)
    subst this; simp [pairRow]
  | succ m ih =>
    intro T hlen hs
    match T, hlen, hs with
    | [], _, _ => simp [pairRow]
    | [a], _, _ =>
      refine ⟨by intro j; simp [pairRow, eq_comm], by simp [pairRow], ?_, by simp [pairRow]⟩
      intro j
      simp only [pairRow, List.mem_singleton]
      rw [xor_one_cases, xor_one_cases]
      split <;> split <;> omega
    | a :: b :: rest, hlen, hs =>
      have hab : a < b := by simp at hs; omega
      have s1 : (b :: rest).Pairwise (· < ·) := (List.pairwise_cons.1 hs).2
      have s2 : rest.Pairwise (· < ·) := (List.pairwise_cons.1 s1).2
      have hbr : ∀ x ∈ rest, b < x := fun x hx => (List.pairwise_cons.1 s1).1 x hx
      simp only [List.length_cons] at hlen
      by_cases h : a ||| 1 = b
      · rw [pairRow_cons_eq h]
        obtain ⟨i1, i2, i3, i4⟩ := ih rest (by omega) s2
        have hh := (or_one_iff_of_lt hab).1 h
        refine ⟨?_, ?_, ?_, i4⟩
        · intro j
          simp only [List.mem_cons, i1]
          constructor
          · rintro (rfl | ⟨x, hx, rfl⟩)
            · exact ⟨a, by simp, rfl⟩
            · exact ⟨x, by simp [hx], rfl⟩
          · rintro ⟨x, (rfl | rfl | hx), rfl⟩
            · exact .inl rfl
            · left; omega
            · exact .inr ⟨x, hx, rfl⟩
        · rw [List.pairwise_cons]
          refine ⟨?_, i2⟩
          intro j hj
          obtain ⟨x, hx, rfl⟩ := (i1 j).1 hj
          have := hbr x hx
          omega
        · intro j
          rw [i3]
          simp only [List.mem_cons]
          have hx1 : ∀ j, j ^^^ 1 = a ↔ j = b := by
            intro j; rw [xor_one_cases]; split <;> omega
          have hx2 : ∀ j, j ^^^ 1 = b ↔ j = a := by
            intro j; rw [xor_one_cases]; split <;> omega
          rw [hx1, hx2]
          constructor
          · rintro ⟨h1, h2⟩
            refine ⟨.inr (.inr h1), ?_⟩
            rintro (rfl | rfl | h3)
            · have := hbr _ h1; rw [xor_one_cases] at this; split at this <;> omega
            · have := hbr _ h1; rw [xor_one_cases] at this; split at this <;> omega
            · exact h2 h3
          · rintro ⟨h1 | h1 | h1, h2⟩
            · exact absurd (.inr (.inl h1)) h2
            · exact absurd (.inl h1) h2
            · exact ⟨h1, fun h3 => h2 (.inr (.inr h3))⟩
      · rw [pairRow_cons_ne h]
        obtain ⟨i1, i2, i3, i4⟩ := ih (b :: rest) (by simp; omega) s1
        have hne : ¬ (a % 2 = 0 ∧ b = a + 1) := fun hh => h ((or_one_iff_of_lt hab).2 hh)
        have hlb : ∀ x ∈ b :: rest, b ≤ x := by
          intro x hx
          rcases List.mem_cons.1 hx with rfl | hx
          · exact le_rfl
          · exact (hbr x hx).le
        have hpar : ∀ x ∈ b :: rest, a / 2 < x / 2 := by
          intro x hx; have := hlb x hx; omega
        clear hbr hlb hs s1 s2
        generalize b :: rest = Q at *
        refine ⟨?_, ?_, ?_, ?_⟩
        · intro j
          rw [List.mem_cons, i1]
          constructor
          · rintro (rfl | ⟨x, hx, rfl⟩)
            · exact ⟨a, by simp, rfl⟩
            · exact ⟨x, List.mem_cons_of_mem _ hx, rfl⟩
          · rintro ⟨x, hx, rfl⟩
            rcases List.mem_cons.1 hx with rfl | hx
            · exact .inl rfl
            · exact .inr ⟨x, hx, rfl⟩
        · rw [List.pairwise_cons]
          refine ⟨?_, i2⟩
          intro j hj
          obtain ⟨x, hx, rfl⟩ := (i1 j).1 hj
          exact hpar x hx
        · intro j
          rw [List.mem_cons, i3, List.mem_cons (a := j ^^^ 1), List.mem_cons (a := j) (b := a)]
          have hx1 : j ^^^ 1 = a ↔ j = a ^^^ 1 := by
            rw [xor_one_cases, xor_one_cases]; split <;> split <;> omega
          rw [hx1]
          constructor
          · rintro (rfl | ⟨h1, h2⟩)
            · refine ⟨.inl rfl, ?_⟩
              rintro (h3 | h3)
              · rw [xor_one_cases] at h3; split at h3 <;> omega
              · have := hpar _ h3; rw [xor_one_cases] at this; split at this <;> omega
            · refine ⟨.inr h1, ?_⟩
              rintro (rfl | h3)
              · have := hpar _ h1; rw [xor_one_cases] at this; split at this <;> omega
              · exact h2 h3
          · rintro ⟨h1 | h1, h2⟩
            · exact .inl h1
            · exact .inr ⟨h1, fun h3 => h2 (.inr h3)⟩
        · rw [List.pairwise_cons]
          refine ⟨?_, i4⟩
          intro j hj
          have := hpar _ ((i3 j).1 hj).1
          rw [xor_one_cases] at this ⊢
          split at this <;> split <;> omega

/-! ## The row loop -/

/-- Index of the last forest node on row `r` is the root, if there is one. -/
theorem rootIdx_eq {n r : Nat} (h : n.testBit r = true) : rootIdx n r + 1 = n / 2 ^ r := by
  have := testBit_div (n := n) (t := r)
  rw [h] at this
  unfold rootIdx; simp at this; omega

theorem inForest_iff {n r i : Nat} : InForest n r i ↔ i < n / 2 ^ r := by
  unfold InForest
  rw [← Nat.le_div_iff_mul_le (by positivity)]
  omega

theorem inForest_parent_iff {n r i : Nat} (h : InForest n r i) :
    InForest n (r + 1) (i / 2) ↔ ¬ (n.testBit r = true ∧ i = rootIdx n r) := by
  rw [inForest_iff] at *
  have h1 := testBit_div (n := n) (t := r)
  unfold rootIdx
  cases hb : n.testBit r <;> rw [hb] at h1 <;>
    simp only [if_true, if_false, Bool.false_eq_true, Nat.add_zero] at h1 <;> simp <;> omega

/-- Targets of a row with the root removed. -/
def nonRoots (n r : Nat) (T : List Nat) : List Nat := T.filter fun i => i / 2 < n / 2 ^ (r + 1)

theorem filter_all {α} {p : α → Bool} {l : List α} (h : ∀ a ∈ l, p a = true) : l.filter p = l :=
  List.filter_eq_self.2 h

theorem dropRootTarget_eq {n r : Nat} (hn : n ≤ 2 ^ 62) (hr : r ≤ St.numRows n) {T : List Nat}
    (hs : T.Pairwise (· < ·)) (hb : ∀ j ∈ T, j < n / 2 ^ r) :
    St.dropRootTarget n r (T.map (posOf (St.numRows n) r)) =
      .ok ((nonRoots n r T).map (posOf (St.numRows n) r)) := by
  have hR := numRows_le_62 hn
  unfold St.dropRootTarget
  rw [hasRoot_eq (by omega)]
  simp only [ok_bind]
  have h1 := testBit_div (n := n) (t := r)
  by_cases hbit : n.testBit r = true
  · rw [if_pos hbit]
    rw [hbit] at h1; simp only [if_true] at h1
    rcases List.eq_nil_or_concat T with rfl | ⟨T', x, rfl⟩
    · rfl
    · rw [List.concat_eq_append] at *
      simp only [List.map_append, List.map_cons, List.map_nil, List.getLast?_append,
        List.getLast?_singleton, Option.some_or]
      rw [rootPosition_eq hn hr]
      simp only [ok_bind, pure_ok]
      rw [List.pairwise_append] at hs
      have hx := hb x (by simp)
      have hlt : ∀ y ∈ T', y < x := fun y hy => hs.2.2 y hy x (by simp)
      have hT' : ∀ y ∈ T', decide (y / 2 < n / 2 ^ (r + 1)) = true := by
        intro y hy; have := hlt y hy; simp; omega
      have hxe : (posOf (St.numRows n) r x = posOf (St.numRows n) r (rootIdx n r)) ↔
          ¬ x / 2 < n / 2 ^ (r + 1) := by
        unfold posOf rootIdx; omega
      unfold nonRoots
      rw [List.filter_append, filter_all hT']
      by_cases hxr : x / 2 < n / 2 ^ (r + 1)
      · rw [if_neg (by rw [hxe]; simpa using hxr)]
        simp [hxr]
      · rw [if_pos (hxe.2 hxr)]
        simp [hxr]
  · rw [if_neg hbit]
    simp only [hbit] at h1
    unfold nonRoots
    rw [filter_all]
    · rfl
    · intro a ha; have := hb a ha; simp; simp at h1; omega

/-- Computed indexes on the rows from `r` on. -/
def compRows (n : Nat) : Nat → Nat → List Nat → List (Nat × List Nat)
  | 0, _, _ => []
  | k + 1, r, T => (r, T) :: compRows n k (r + 1) (pairRow (nonRoots n r T)).2

/-- Sortedness and bounds carried to the next row. -/
theorem next_row_ok {n r : Nat} {T : List Nat} (hs : T.Pairwise (· < ·)) :
    (nonRoots n r T).Pairwise (· < ·) ∧ (pairRow (nonRoots n r T)).2.Pairwise (· < ·) ∧
      ∀ j ∈ (pairRow (nonRoots n r T)).2, j < n / 2 ^ (r + 1) := by
  have h1 : (nonRoots n r T).Pairwise (· < ·) := hs.filter _
  obtain ⟨i1, i2, i3, i4⟩ := pairRow_spec _ (nonRoots n r T) le_rfl h1
  refine ⟨h1, i2, ?_⟩
  intro j hj
  obtain ⟨a, ha, rfl⟩ := (i1 j).1 hj
  unfold nonRoots at ha
  simpa using (List.mem_filter.1 ha).2

theorem proofRows_eq {n : Nat} (hn : n ≤ 2 ^ 62) : ∀ (k r : Nat) (T : List Nat),
    k + r = St.numRows n + 1 → T.Pairwise (· < ·) → (∀ j ∈ T, j < n / 2 ^ r) →
    St.proofRows n k r (T.map (posOf (St.numRows n) r)) =
      .ok ((compRows n k r T).flatMap (fun p => (pairRow (nonRoots n p.1 p.2)).1.map (posOf (St.numRows n) p.1)),
        (compRows n k r T).flatMap (fun p => p.2.map (posOf (St.numRows n) p.1))) := by
  have hR := numRows_le_62 hn
  have hnR : n ≤ 2 ^ St.numRows n := le_two_pow_numRows (by omega)
  intro k
  induction k with
  | zero => intro r T _ _ _; rfl
  | succ k ih =>
    intro r T hk hs hb
    rw [St.proofRows, dropRootTarget_eq hn (by omega) hs hb]
    simp only [ok_bind]
    obtain ⟨n1, n2, n3⟩ := next_row_ok (n := n) (r := r) hs
    have hpr : St.proofRow n ((nonRoots n r T).map (posOf (St.numRows n) r)) =
        .ok ((pairRow (nonRoots n r T)).1.map (posOf (St.numRows n) r),
          (pairRow (nonRoots n r T)).2.map (posOf (St.numRows n) (r + 1))) := by
      by_cases hr : r + 1 ≤ St.numRows n
      · apply proofRow_eq (by omega) hr _ _ le_rfl n1
        intro j hj
        have hjT : j ∈ T := (List.mem_filter.1 hj).1
        exact (inForest_lt hnR (inForest_iff.2 (hb j hjT))).2
      · have : nonRoots n r T = [] := by
          rw [List.eq_nil_iff_forall_not_mem]
          intro j hj
          have := (List.mem_filter.1 hj).2
          have h2 : n / 2 ^ (r + 1) = 0 := by
            apply Nat.div_eq_of_lt
            have h3 : 2 ^ (r + 1) = 2 * 2 ^ St.numRows n := by
              rw [show r = St.numRows n by omega, pow_succ]; ring
            have : 0 < 2 ^ St.numRows n := by positivity
            omega
          rw [h2] at this; simp at this
        rw [this]; rfl
    rw [hpr]
    simp only [ok_bind]
    rw [ih (r + 1) _ (by omega) n2 n3]
    simp [compRows]

theorem mem_compRows {n : Nat} : ∀ (k r : Nat) (T : List Nat) (s : Nat) (S : List Nat),
    T.Pairwise (· < ·) → (∀ j ∈ T, j < n / 2 ^ r) →
    (s, S) ∈ compRows n k r T →
      r ≤ s ∧ s < r + k ∧ S.Pairwise (· < ·) ∧
      ∀ j, j ∈ S ↔ j < n / 2 ^ s ∧ ∃ a ∈ T, a / 2 ^ (s - r) = j := by
  intro k
  induction k with
  | zero => intro r T s S _ _ h; simp [compRows] at h
  | succ k ih =>
    intro r T s S hs hb h
    rw [compRows, List.mem_cons] at h
    rcases h with h | h
    · simp only [Prod.mk.injEq] at h
      obtain ⟨rfl, rfl⟩ := h
      refine ⟨le_rfl, by omega, hs, ?_⟩
      intro j
      simp only [Nat.sub_self, pow_zero, Nat.div_one]
      exact ⟨fun h => ⟨hb j h, j, h, rfl⟩, by rintro ⟨_, a, ha, rfl⟩; exact ha⟩
    · obtain ⟨n1, n2, n3⟩ := next_row_ok (n := n) (r := r) hs
      obtain ⟨h1, h2, h3, h4⟩ := ih (r + 1) _ s S n2 n3 h
      refine ⟨by omega, by omega, h3, ?_⟩
      intro j
      rw [h4]
      obtain ⟨i1, -, -, -⟩ := pairRow_spec _ (nonRoots n r T) le_rfl n1
      have hpow : ∀ a : Nat, a / 2 / 2 ^ (s - (r + 1)) = a / 2 ^ (s - r) := by
        intro a
        rw [Nat.div_div_eq_div_mul, ← pow_succ', show s - (r + 1) + 1 = s - r by omega]
      constructor
      · rintro ⟨hj, x, hx, rfl⟩
        obtain ⟨a, ha, rfl⟩ := (i1 x).1 hx
        refine ⟨hj, a, (List.mem_filter.1 ha).1, (hpow a).symm⟩
      · rintro ⟨hj, a, ha, rfl⟩
        refine ⟨hj, a / 2, (i1 _).2 ⟨a, ?_, rfl⟩, hpow a⟩
        unfold nonRoots
        rw [List.mem_filter]
        refine ⟨ha, ?_⟩
        simp only [decide_eq_true_eq]
        by_contra hc
        have : a / 2 / 2 ^ (s - (r + 1)) < n / 2 ^ (r + 1) / 2 ^ (s - (r + 1)) := by
          rw [hpow, Nat.div_div_eq_div_mul, ← pow_add, show r + 1 + (s - (r + 1)) = s by omega]
          exact hj
        have h5 := Nat.div_le_div_right (c := 2 ^ (s - (r + 1))) (Nat.not_lt.1 hc)
        omega

theorem compRows_row_mem {n : Nat} : ∀ (k r : Nat) (T : List Nat) (s : Nat),
    r ≤ s → s < r + k → ∃ S, (s, S) ∈ compRows n k r T := by
  intro k
  induction k with
  | zero => intro r T s h1 h2; omega
  | succ k ih =>
    intro r T s h1 h2
    rw [compRows]
    rcases Nat.lt_or_eq_of_le h1 with h | h
    · obtain ⟨S, hS⟩ := ih (r + 1) (pairRow (nonRoots n r T)).2 s (by omega) (by omega)
      exact ⟨S, List.mem_cons_of_mem _ hS⟩
    · exact ⟨T, by simp [h]⟩

/-- Lists built row by row in increasing rows are strictly increasing. -/
theorem flatMap_sorted {n R : Nat} (f : Nat × List Nat → List Nat) : ∀ (k r : Nat) (T : List Nat),
    (∀ p ∈ compRows n k r T, (f p).Pairwise (· < ·) ∧ ∀ j ∈ f p, j < 2 ^ (R - p.1)) →
    ((compRows n k r T).flatMap fun p => (f p).map (posOf R p.1)).Pairwise (· < ·) ∧
    ∀ x ∈ (compRows n k r T).flatMap (fun p => (f p).map (posOf R p.1)), rowStart R r ≤ x := by
  intro k
  induction k with
  | zero => intro r T _; simp [compRows]
  | succ k ih =>
    intro r T h
    rw [compRows] at *
    simp only [List.flatMap_cons]
    obtain ⟨i1, i2⟩ := ih (r + 1) (pairRow (nonRoots n r T)).2 (fun p hp => h p (List.mem_cons_of_mem _ hp))
    obtain ⟨g1, g2⟩ := h (r, T) (by simp)
    constructor
    · rw [List.pairwise_append]
      refine ⟨?_, i1, ?_⟩
      · rw [List.pairwise_map]
        exact g1.imp (fun h => by unfold posOf; omega)
      · intro a ha b hb
        obtain ⟨j, hj, rfl⟩ := List.mem_map.1 ha
        have := posOf_lt_next (g2 j hj)
        have := i2 b hb
        simp only at *
        omega
    · intro x hx
      rcases List.mem_append.1 hx with hx | hx
      · obtain ⟨j, hj, rfl⟩ := List.mem_map.1 hx
        unfold posOf; simp
      · have := i2 x hx
        have := rowStart_mono (R := R) (show r ≤ r + 1 by omega)
        omega

theorem map_posOf_zero (R : Nat) (T : List Nat) : T.map (posOf R 0) = T := by
  conv_rhs => rw [← List.map_id T]
  apply List.map_congr_left
  intro a _; simp [posOf, rowStart]

/-- A computed node: a target or an ancestor of one, inside its tree. -/
def CompAt (n : Nat) (T : List Nat) (r j : Nat) : Prop := InForest n r j ∧ ∃ a ∈ T, a / 2 ^ r = j

theorem proofPositions_spec {n : Nat} (hn : n ≤ 2 ^ 62) {T : List Nat} (hs : T.Pairwise (· < ·))
    (hb : ∀ a ∈ T, a < n) :
    ∃ pf comp, St.proofPositions n T = .ok (pf, comp) ∧
      pf.Pairwise (· < ·) ∧ comp.Pairwise (· < ·) ∧
      (∀ p, p ∈ comp ↔ ∃ r j, p = posOf (St.numRows n) r j ∧ CompAt n T r j) ∧
      (∀ p, p ∈ pf ↔ ∃ r j, p = posOf (St.numRows n) r (j ^^^ 1) ∧ CompAt n T r j ∧
        ¬ (n.testBit r = true ∧ j = rootIdx n r) ∧ ¬ CompAt n T r (j ^^^ 1)) := by
  have hnR : n ≤ 2 ^ St.numRows n := le_two_pow_numRows (by omega)
  have hb' : ∀ a ∈ T, a < n / 2 ^ 0 := by simpa using hb
  have key := proofRows_eq hn (St.numRows n + 1) 0 T (by omega) hs hb'
  rw [map_posOf_zero] at key
  set R := St.numRows n with hRdef
  have hmem := mem_compRows (n := n) (R + 1) 0 T
  -- nodes of rows
  have hcomp : ∀ r j S, (r, S) ∈ compRows n (R + 1) 0 T → (j ∈ S ↔ CompAt n T r j) := by
    intro r j S hS
    rw [(hmem r S hs hb' hS).2.2.2 j]
    unfold CompAt; rw [inForest_iff]; simp
  have hpf : ∀ r j S, (r, S) ∈ compRows n (R + 1) 0 T →
      (j ∈ (pairRow (nonRoots n r S)).1 ↔ (CompAt n T r (j ^^^ 1) ∧
        ¬ (n.testBit r = true ∧ (j ^^^ 1) = rootIdx n r) ∧ ¬ CompAt n T r j)) := by
    intro r j S hS
    have hsS := (hmem r S hs hb' hS).2.2.1
    obtain ⟨-, -, i3, -⟩ := pairRow_spec _ (nonRoots n r S) le_rfl (hsS.filter _)
    rw [i3]
    have hx : ∀ y, y ∈ nonRoots n r S ↔ CompAt n T r y ∧ InForest n (r + 1) (y / 2) := by
      intro y; unfold nonRoots; rw [List.mem_filter, hcomp r y S hS, inForest_iff]; simp
    rw [hx, hx]
    have hdiv : (j ^^^ 1) / 2 = j / 2 := by rw [xor_one_cases]; split <;> omega
    constructor
    · rintro ⟨⟨h1, h2⟩, h3⟩
      refine ⟨h1, (inForest_parent_iff h1.1).1 h2, ?_⟩
      intro h4; exact h3 ⟨h4, by rw [← hdiv]; exact h2⟩
    · rintro ⟨h1, h2, h3⟩
      exact ⟨⟨h1, (inForest_parent_iff h1.1).2 h2⟩, fun h4 => h3 h4.1⟩
  have hbound : ∀ r j, CompAt n T r j → r ≤ R ∧ j < 2 ^ (R - r) :=
    fun r j h => inForest_lt hnR h.1
  have hbound' : ∀ r j, CompAt n T r (j ^^^ 1) → ¬ (n.testBit r = true ∧ (j ^^^ 1) = rootIdx n r) →
      j < 2 ^ (R - r) := by
    intro r j h1 h2
    have h3 := (inForest_parent_iff h1.1).2 h2
    have h4 := inForest_lt hnR h3
    have hdiv : (j ^^^ 1) / 2 = j / 2 := by rw [xor_one_cases]; split <;> omega
    rw [hdiv] at h4
    have : 2 ^ (R - r) = 2 * 2 ^ (R - (r + 1)) := by
      rw [← pow_succ', show R - (r + 1) + 1 = R - r by omega]
    omega
  refine ⟨_, _, key, ?_, ?_, ?_, ?_⟩
  · apply (flatMap_sorted (fun p => (pairRow (nonRoots n p.1 p.2)).1) (R + 1) 0 T ?_).1
    rintro ⟨r, S⟩ hp
    have hsS := (hmem r S hs hb' hp).2.2.1
    obtain ⟨-, -, i3, i4⟩ := pairRow_spec _ (nonRoots n r S) le_rfl (hsS.filter _)
    refine ⟨i4, ?_⟩
    intro j hj
    obtain ⟨h1, h2, h3⟩ := (hpf r j S hp).1 hj
    exact hbound' r j h1 h2
  · apply (flatMap_sorted (fun p => p.2) (R + 1) 0 T ?_).1
    rintro ⟨r, S⟩ hp
    refine ⟨(hmem r S hs hb' hp).2.2.1, ?_⟩
    intro j hj
    exact (hbound r j ((hcomp r j S hp).1 hj)).2
  · intro p
    rw [List.mem_flatMap]
    constructor
    · rintro ⟨⟨r, S⟩, hS, hp⟩
      obtain ⟨j, hj, rfl⟩ := List.mem_map.1 hp
      exact ⟨r, j, rfl, (hcomp r j S hS).1 hj⟩
    · rintro ⟨r, j, rfl, hc⟩
      obtain ⟨S, hS⟩ := compRows_row_mem (n := n) (R + 1) 0 T r (by omega) (by have := (hbound r j hc).1; omega)
      exact ⟨(r, S), hS, List.mem_map.2 ⟨j, (hcomp r j S hS).2 hc, rfl⟩⟩
  · intro p
    rw [List.mem_flatMap]
    have hxx : ∀ j : Nat, (j ^^^ 1) ^^^ 1 = j := by intro j; rw [Nat.xor_assoc]; simp
    constructor
    · rintro ⟨⟨r, S⟩, hS, hp⟩
      obtain ⟨j, hj, rfl⟩ := List.mem_map.1 hp
      refine ⟨r, j ^^^ 1, by rw [hxx], ?_⟩
      rw [hxx]
      exact (hpf r j S hS).1 hj
    · rintro ⟨r, j, rfl, hc, h2, h3⟩
      obtain ⟨S, hS⟩ := compRows_row_mem (n := n) (R + 1) 0 T r (by omega) (by have := (hbound r j hc).1; omega)
      exact ⟨(r, S), hS, List.mem_map.2 ⟨j ^^^ 1, (hpf r _ S hS).2 (by rw [hxx]; exact ⟨hc, h2, h3⟩), rfl⟩⟩

end Utreexo
