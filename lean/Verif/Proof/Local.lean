import Verif.Proof.Settle

/-!
# Deletions on the right of a row boundary leave the trees on its left alone
-/

set_option linter.unusedSectionVars false

namespace Utreexo
open Spec

namespace Settle

variable {α : Type}

/-- One row: the trees of the next row and the root of this one. -/
def J (row : List (Option (List α))) : List (Option (List α)) × Option (List α) :=
  joinRow (siblings row).1.length (siblings row).1 (siblings row).2

theorem settle_succ (k : ℕ) (row : List (Option (List α))) : settle (k + 1) row = settle k (J row).1 ++ (J row).2.getD [] := rfl

/-- Pairs of trees joined. -/
def joins : List (List α) → List (List α)
  | a :: b :: B => (a ++ b) :: joins B
  | _ => []

theorem J_cons (a b : List α) (row : List (Option (List α))) : J (some a :: some b :: row) = (some (a ++ b) :: (J row).1, (J row).2) := rfl

theorem J_full : ∀ (n : ℕ) (B : List (List α)) (row : List (Option (List α))), B.length = 2 * n →
    J (B.map some ++ row) = ((joins B).map some ++ (J row).1, (J row).2)
  | 0, B, row, h => by
    obtain rfl : B = [] := List.length_eq_zero_iff.1 (by omega)
    rfl
  | n + 1, [], row, h => by simp at h
  | n + 1, [_], row, h => by simp at h; omega
  | n + 1, a :: b :: B, row, h => by
    have hl : B.length = 2 * n := by simp only [List.length_cons] at h; omega
    rw [List.map_cons, List.map_cons, List.cons_append, List.cons_append, J_cons, J_full n B row hl]
    rfl

theorem joins_length : ∀ (n : ℕ) (B : List (List α)), B.length = 2 * n → (joins B).length = n
  | 0, B, h => by
    obtain rfl : B = [] := List.length_eq_zero_iff.1 (by omega)
    rfl
  | n + 1, [], h => by simp at h
  | n + 1, [_], h => by simp at h; omega
  | n + 1, a :: b :: B, h => by
    have hl : B.length = 2 * n := by simp only [List.length_cons] at h; omega
    rw [joins, List.length_cons, joins_length n B hl]

theorem joins_flatten : ∀ (n : ℕ) (B : List (List α)), B.length = 2 * n → (joins B).flatten = B.flatten
  | 0, B, h => by
    obtain rfl : B = [] := List.length_eq_zero_iff.1 (by omega)
    rfl
  | n + 1, [], h => by simp at h
  | n + 1, [_], h => by simp at h; omega
  | n + 1, a :: b :: B, h => by
    have hl : B.length = 2 * n := by simp only [List.length_cons] at h; omega
    rw [joins, List.flatten_cons, joins_flatten n B hl, List.flatten_cons, List.flatten_cons, List.append_assoc]

theorem takeNext_length {T : Type} : ∀ (ps : List (Option T × Option T)) (o : Option T) (t : T) (ps' : List (Option T × Option T)) (o' : Option T),
    takeNext ps o = some (t, ps', o') → ps'.length = ps.length
  | [], none, t, ps', o', h => by simp [takeNext] at h
  | [], some _, t, ps', o', h => by
    simp only [takeNext, Option.some.injEq, Prod.mk.injEq] at h
    rw [← h.2.1]
  | (some _, none) :: ps, o, t, ps', o', h => by
    simp only [takeNext, Option.some.injEq, Prod.mk.injEq] at h
    rw [← h.2.1]; rfl
  | (none, some _) :: ps, o, t, ps', o', h => by
    simp only [takeNext, Option.some.injEq, Prod.mk.injEq] at h
    rw [← h.2.1]; rfl
  | (some _, some _) :: ps, o, t, ps', o', h => by
    simp only [takeNext, Option.map_eq_some_iff, Prod.mk.injEq] at h
    obtain ⟨⟨t2, q, o2⟩, e, -, e2, -⟩ := h
    rw [← e2, List.length_cons, List.length_cons, takeNext_length ps o t2 q o2 e]
  | (none, none) :: ps, o, t, ps', o', h => by
    simp only [takeNext, Option.map_eq_some_iff, Prod.mk.injEq] at h
    obtain ⟨⟨t2, q, o2⟩, e, -, e2, -⟩ := h
    rw [← e2, List.length_cons, List.length_cons, takeNext_length ps o t2 q o2 e]

theorem joinRow_length : ∀ (k : ℕ) (ps : List (Option (List α) × Option (List α))) (o : Option (List α)), ps.length = k →
    (joinRow k ps o).1.length = k
  | 0, ps, o, h => by
    obtain rfl : ps = [] := List.length_eq_zero_iff.1 h
    rfl
  | k + 1, [], o, h => by simp at h
  | k + 1, (x, y) :: ps, o, h => by
    have hl : ps.length = k := by simpa using h
    have key : ∀ (x y : Option (List α)), (match takeNext ps o with
      | some (t, ps', o') => (some (x.getD t ++ y.getD t) :: (joinRow k ps' o').1, (joinRow k ps' o').2)
      | none => (none :: (joinRow k ps o).1, x.or y)).1.length = k + 1 := by
      intro x y
      cases e : takeNext ps o with
      | none => simp [joinRow_length k ps o hl]
      | some r =>
        obtain ⟨t, ps', o'⟩ := r
        simp [joinRow_length k ps' o' ((takeNext_length ps o t ps' o' e).trans hl)]
    rcases x with _ | x <;> rcases y with _ | y
    · simp [joinRow, joinRow_length k ps o hl]
    · exact key none (some y)
    · exact key (some x) none
    · simp [joinRow, joinRow_length k ps o hl]

theorem siblings_length {T : Type} : ∀ (row : List (Option T)), (siblings row).1.length = row.length / 2
  | [] => by simp [siblings]
  | [x] => by simp [siblings]
  | x :: y :: row => by
    rw [siblings, List.length_cons, siblings_length row, List.length_cons, List.length_cons]
    omega

theorem J_length (row : List (Option (List α))) : (J row).1.length = row.length / 2 := by
  unfold J
  rw [joinRow_length _ _ _ rfl, siblings_length]

/-- The number of rows given is irrelevant as long as it is large enough. -/
theorem settle_fuel : ∀ (k d : ℕ) (row : List (Option (List α))), row.length < 2 ^ k → settle (k + d) row = settle k row
  | 0, d, row, h => by
    obtain rfl : row = [] := List.length_eq_zero_iff.1 (by omega)
    rw [settle_nil, settle_nil]
  | k + 1, d, row, h => by
    rw [show k + 1 + d = (k + d) + 1 by omega, settle_succ, settle_succ, settle_fuel k d]
    rw [J_length]
    rw [pow_succ] at h
    omega

theorem settle_one (k : ℕ) (y : List α) : settle (k + 1) [some y] = y := by
  rw [settle_succ]
  show settle k [] ++ y = y
  rw [settle_nil, List.nil_append]

theorem settle_none (k : ℕ) : settle k [(none : Option (List α))] = [] := by
  cases k with
  | zero => rfl
  | succ k =>
    rw [settle_succ]
    show settle k [] ++ [] = []
    rw [settle_nil, List.nil_append]

theorem settle_last : ∀ (k : ℕ) (B : List (List α)) (row : List (Option (List α))), row.length ≤ 1 → B.length + row.length < 2 ^ k →
    settle k (B.map some ++ row) = B.flatten ++ settle k row
  | 0, B, row, _, h => by
    obtain rfl : B = [] := List.length_eq_zero_iff.1 (by omega)
    obtain rfl : row = [] := List.length_eq_zero_iff.1 (by omega)
    rfl
  | k + 1, B, row, hr, h => by
    rw [pow_succ] at h
    rcases Nat.even_or_odd' B.length with ⟨n, hn | hn⟩
    · have h0 : (J row).1 = [] := List.length_eq_zero_iff.1 (by rw [J_length]; omega)
      rw [settle_succ, J_full n B row hn, settle_succ]
      dsimp only
      rw [settle_last k (joins B) (J row).1 (by rw [h0]; simp) (by rw [h0, joins_length n B hn, List.length_nil]; omega), joins_flatten n B hn,
        List.append_assoc]
    · have hne : B ≠ [] := by rintro rfl; simp at hn
      obtain ⟨B0, b, rfl⟩ : ∃ B0 b, B = B0 ++ [b] := ⟨B.dropLast, B.getLast hne, (List.dropLast_append_getLast hne).symm⟩
      rw [List.length_append, List.length_singleton] at hn h
      have hn0 : B0.length = 2 * n := by omega
      have hX : (B0 ++ [b]).map some ++ row = B0.map some ++ (some b :: row) := by simp
      rw [hX, settle_succ, J_full n B0 _ hn0]
      dsimp only
      cases row with
      | nil =>
        show settle k ((joins B0).map some ++ []) ++ b = _
        rw [settle_last k (joins B0) [] (by simp) (by rw [joins_length n B0 hn0]; simp only [List.length_nil]; omega), joins_flatten n B0 hn0,
          settle_nil, settle_nil, List.append_nil, List.append_nil]
        simp
      | cons z row =>
        obtain rfl : row = [] := List.length_eq_zero_iff.1 (by simpa using hr)
        have hk : k ≠ 0 := by
          rintro rfl
          simp only [List.length_cons, List.length_nil] at h
          omega
        obtain ⟨k', rfl⟩ := Nat.exists_eq_succ_of_ne_zero hk
        have hb : (joins B0).length + 1 < 2 ^ (k' + 1) := by
          rw [joins_length n B0 hn0]
          simp only [List.length_cons, List.length_nil, Nat.succ_eq_add_one] at h
          omega
        cases z with
        | none =>
          show settle (k' + 1) ((joins B0).map some ++ [none]) ++ b = _
          rw [settle_last (k' + 1) (joins B0) [none] (by simp) hb, joins_flatten n B0 hn0, settle_none, settle_none]
          simp
        | some x =>
          show settle (k' + 1) ((joins B0).map some ++ [some (b ++ x)]) ++ [] = _
          rw [settle_last (k' + 1) (joins B0) [some (b ++ x)] (by simp) hb, joins_flatten n B0 hn0, settle_one, settle_one]
          simp

theorem settle_left : ∀ (t k : ℕ) (B : List (List α)) (row : List (Option (List α))), 2 ^ t ∣ B.length → row.length ≤ 2 ^ t →
    B.length + row.length < 2 ^ k → settle k (B.map some ++ row) = B.flatten ++ settle k row
  | 0, k, B, row, _, hr, h => settle_last k B row (by simpa using hr) h
  | t + 1, 0, B, row, _, _, h => settle_last 0 B row (by simp only [pow_zero] at h; omega) h
  | t + 1, k + 1, B, row, hd, hr, h => by
    obtain ⟨c, hc⟩ := hd
    have hn : B.length = 2 * (2 ^ t * c) := by rw [hc, pow_succ]; ring
    rw [pow_succ] at h hr
    rw [settle_succ, J_full _ B row hn, settle_succ]
    dsimp only
    rw [settle_left t k (joins B) (J row).1 (by rw [joins_length _ B hn]; exact ⟨c, rfl⟩) (by rw [J_length]; omega)
      (by rw [joins_length _ B hn, J_length]; omega), joins_flatten _ B hn, List.append_assoc]

/-- Deletions among the at most `2 ^ t` leaves after a multiple of `2 ^ t`: the leaves before stay where they are, and those after it are
arranged as in a forest of their own. -/
theorem delete_right (L : List α) (D : List ℕ) (t m : ℕ) (hm : m ≤ L.length) (hd : 2 ^ t ∣ m) (hle : L.length ≤ m + 2 ^ t)
    (hD : ∀ x ∈ D, m ≤ x) : deleteLeaves L D = L.take m ++ deleteLeaves (L.drop m) (D.map (· - m)) := by
  unfold deleteLeaves
  have hlen : (L.take m).length = m := by rw [List.length_take]; omega
  have hz : L.zipIdx.map (fun e => if D.contains e.2 then none else some [e.1]) =
      ((L.take m).map fun a => [a]).map some ++
        (L.drop m).zipIdx.map (fun e => if (D.map (· - m)).contains e.2 then none else some [e.1]) := by
    conv_lhs => rw [← List.take_append_drop m L]
    rw [List.zipIdx_append, List.map_append]
    congr 1
    · apply List.ext_getElem
      · simp
      · intro i h1 h2
        have hi : i < m := by
          rw [List.length_map, List.length_zipIdx, hlen] at h1
          exact h1
        simp only [List.getElem_map, List.getElem_zipIdx, Nat.zero_add]
        rw [if_neg]
        intro hc
        have := hD i (by simpa using hc)
        omega
    · apply List.ext_getElem
      · simp
      · intro i h1 h2
        simp only [List.getElem_map, List.getElem_zipIdx, Nat.zero_add, hlen]
        have : D.contains (m + i) = (D.map (· - m)).contains i := by
          rw [Bool.eq_iff_iff, List.contains_iff_mem, List.contains_iff_mem, List.mem_map]
          constructor
          · exact fun h => ⟨m + i, h, by omega⟩
          · rintro ⟨x, hx, rfl⟩
            have := hD x hx
            rwa [show m + (x - m) = x by omega]
        rw [this]
  rw [hz, settle_left t L.length]
  · have e1 : ((L.take m).map fun a => [a]).flatten = L.take m := by
      generalize L.take m = l
      induction l with
      | nil => rfl
      | cons a l ih => rw [List.map_cons, List.flatten_cons, ih]; rfl
    rw [e1]
    congr 1
    rw [show L.length = (L.drop m).length + m by rw [List.length_drop]; omega, settle_fuel]
    rw [List.length_map, List.length_zipIdx]
    exact Nat.lt_two_pow_self
  · rw [List.length_map, hlen]; exact hd
  · rw [List.length_map, List.length_zipIdx, List.length_drop]; omega
  · rw [List.length_map, hlen, List.length_map, List.length_zipIdx, List.length_drop, show m + (L.length - m) = L.length by omega]
    exact Nat.lt_two_pow_self

end Settle

end Utreexo
