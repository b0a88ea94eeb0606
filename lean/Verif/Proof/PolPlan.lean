import Verif.Proof.PolAdd
import Verif.Spec.Reads

/-! # The nodes of a proof tree, row by row -/

set_option linter.unusedSectionVars false

namespace Utreexo
open Spec Equiv

namespace Pol

/-- The computed nodes of row `k`. -/
def Cn (n : ℕ) (D : List ℕ) : ℕ → List ℕ
  | 0 => D
  | k + 1 => (pairRow (nonRoots n k (Cn n D k))).2

/-- The proof nodes of row `k`. -/
def Pn (n : ℕ) (D : List ℕ) (k : ℕ) : List ℕ := (pairRow (nonRoots n k (Cn n D k))).1

/-- The children of a row. -/
def kidsL (l : List ℕ) : List ℕ := l.flatMap fun x => [2 * x, 2 * x + 1]

/-- The nodes of row `k` of the proof tree. -/
def Vn (n : ℕ) (D : List ℕ) (k : ℕ) : List ℕ := kidsL (Cn n D (k + 1)) ++ (Cn n D k).filter (rtOf n k)

theorem mem_kidsL {l : List ℕ} {x : ℕ} : x ∈ kidsL l ↔ x / 2 ∈ l := by
  unfold kidsL
  rw [List.mem_flatMap]
  constructor
  · rintro ⟨y, hy, hx⟩
    have : x / 2 = y := by
      simp only [List.mem_cons, List.not_mem_nil, or_false] at hx; omega
    rw [this]; exact hy
  · intro h
    refine ⟨x / 2, h, ?_⟩
    simp only [List.mem_cons, List.not_mem_nil, or_false]; omega

theorem kidsL_cons (x : ℕ) (l : List ℕ) : kidsL (x :: l) = 2 * x :: (2 * x + 1) :: kidsL l := rfl

theorem kidsL_sorted {l : List ℕ} (h : l.Pairwise (· < ·)) : (kidsL l).Pairwise (· < ·) := by
  induction l with
  | nil => exact List.Pairwise.nil
  | cons x l ih =>
    rw [kidsL_cons]
    obtain ⟨h1, h2⟩ := List.pairwise_cons.1 h
    have hm : ∀ y ∈ kidsL l, 2 * x + 1 < y := by
      intro y hy
      have := h1 _ (mem_kidsL.1 hy); omega
    rw [List.pairwise_cons, List.pairwise_cons]
    refine ⟨?_, hm, ih h2⟩
    intro y hy
    rcases List.mem_cons.1 hy with rfl | hy
    · omega
    · have := hm y hy; omega

/-- Sane targets. -/
structure Sane (n : ℕ) (D : List ℕ) : Prop where
  n62 : n ≤ 2 ^ 62
  sorted : D.Pairwise (· < ·)
  lt : ∀ t ∈ D, t < n

section
variable {n : ℕ} {D : List ℕ} (hD : Sane n D)
include hD

theorem Cn_ok (k : ℕ) : (Cn n D k).Pairwise (· < ·) ∧ ∀ x ∈ Cn n D k, x < n / 2 ^ k := by
  induction k with
  | zero => exact ⟨hD.sorted, fun x hx => by rw [pow_zero, Nat.div_one]; exact hD.lt x hx⟩
  | succ k ih =>
    obtain ⟨-, h2, h3⟩ := next_row_ok (n := n) (r := k) ih.1
    exact ⟨h2, h3⟩

theorem mem_nonRoots {k x : ℕ} : x ∈ nonRoots n k (Cn n D k) ↔ x ∈ Cn n D k ∧ x / 2 < n / 2 ^ (k + 1) := by
  unfold nonRoots; rw [List.mem_filter]; simp

theorem mem_Cn_succ {k x : ℕ} : x ∈ Cn n D (k + 1) ↔ x < n / 2 ^ (k + 1) ∧ ∃ y ∈ Cn n D k, y / 2 = x := by
  have h1 := ((Cn_ok hD k).1.filter (fun i => decide (i / 2 < n / 2 ^ (k + 1))))
  obtain ⟨i1, -, -, -⟩ := pairRow_spec _ (nonRoots n k (Cn n D k)) le_rfl h1
  rw [Cn, i1]
  constructor
  · rintro ⟨a, ha, rfl⟩
    rw [mem_nonRoots hD] at ha
    exact ⟨ha.2, a, ha.1, rfl⟩
  · rintro ⟨h2, a, ha, rfl⟩
    exact ⟨a, (mem_nonRoots hD).2 ⟨ha, h2⟩, rfl⟩

theorem mem_Pn {k x : ℕ} : x ∈ Pn n D k ↔ (x ^^^ 1) ∈ Cn n D k ∧ x / 2 < n / 2 ^ (k + 1) ∧ x ∉ Cn n D k := by
  have h1 := ((Cn_ok hD k).1.filter (fun i => decide (i / 2 < n / 2 ^ (k + 1))))
  obtain ⟨-, -, i3, -⟩ := pairRow_spec _ (nonRoots n k (Cn n D k)) le_rfl h1
  unfold Pn
  rw [i3, mem_nonRoots hD, mem_nonRoots hD, sb_div]
  tauto

theorem Pn_sorted (k : ℕ) : (Pn n D k).Pairwise (· < ·) := by
  have h1 := ((Cn_ok hD k).1.filter (fun i => decide (i / 2 < n / 2 ^ (k + 1))))
  exact (pairRow_spec _ (nonRoots n k (Cn n D k)) le_rfl h1).2.2.2

theorem mem_Cn {k x : ℕ} : x ∈ Cn n D k ↔ x < n / 2 ^ k ∧ ∃ t ∈ D, t / 2 ^ k = x := by
  induction k generalizing x with
  | zero =>
    simp only [pow_zero, Nat.div_one, exists_eq_right]
    exact ⟨fun h => ⟨hD.lt x h, h⟩, fun h => h.2⟩
  | succ k ih =>
    rw [mem_Cn_succ hD]
    constructor
    · rintro ⟨h1, y, hy, rfl⟩
      obtain ⟨-, t, ht, rfl⟩ := ih.1 hy
      exact ⟨h1, t, ht, (div_div_two t k).symm⟩
    · rintro ⟨h1, t, ht, rfl⟩
      refine ⟨h1, t / 2 ^ k, ih.2 ⟨?_, t, ht, rfl⟩, div_div_two t k⟩
      rw [← div_div_two, ← div_div_two] at h1
      omega

theorem mem_Vn {k x : ℕ} : x ∈ Vn n D k ↔ x / 2 ∈ Cn n D (k + 1) ∨ (x ∈ Cn n D k ∧ rtOf n k x = true) := by
  unfold Vn
  rw [List.mem_append, mem_kidsL, List.mem_filter]

theorem Cn_sub {k x : ℕ} (h : x ∈ Cn n D k) : x ∈ Vn n D k := by
  rw [mem_Vn hD]
  by_cases hr : rtOf n k x = true
  · exact .inr ⟨h, hr⟩
  · left
    have hin := (Cn_ok hD k).2 x h
    rw [rtOf_iff hin, not_not] at hr
    exact (mem_Cn_succ hD).2 ⟨hr, x, h, rfl⟩

theorem Vn_in {k x : ℕ} (h : x ∈ Vn n D k) : x < n / 2 ^ k := by
  rcases (mem_Vn hD).1 h with h | h
  · have := (Cn_ok hD (k + 1)).2 _ h
    rw [div_succ_row] at this; omega
  · exact (Cn_ok hD k).2 _ h.1

theorem Vn_cases {k x : ℕ} : x ∈ Vn n D k ↔ x ∈ Cn n D k ∨ x ∈ Pn n D k := by
  constructor
  · intro h
    by_cases hx : x ∈ Cn n D k
    · exact .inl hx
    · right
      rcases (mem_Vn hD).1 h with h | h
      · obtain ⟨h1, y, hy, e⟩ := (mem_Cn_succ hD).1 h
        rw [mem_Pn hD]
        refine ⟨?_, h1, hx⟩
        have : y ≠ x := by rintro rfl; exact hx hy
        have : x ^^^ 1 = y := by rw [xor_one_cases]; split <;> omega
        rw [this]; exact hy
      · exact absurd h.1 hx
  · rintro (h | h)
    · exact Cn_sub hD h
    · obtain ⟨h1, h2, -⟩ := (mem_Pn hD).1 h
      rw [mem_Vn hD]
      left
      exact (mem_Cn_succ hD).2 ⟨h2, _, h1, sb_div x⟩

theorem Vn_sorted (k : ℕ) : (Vn n D k).Pairwise (· < ·) := by
  unfold Vn
  rw [List.pairwise_append]
  refine ⟨kidsL_sorted (Cn_ok hD (k + 1)).1, (Cn_ok hD k).1.filter _, ?_⟩
  intro a ha b hb
  have h1 := (Cn_ok hD (k + 1)).2 _ (mem_kidsL.1 ha)
  obtain ⟨h2, h3⟩ := List.mem_filter.1 hb
  rw [rtOf_iff ((Cn_ok hD k).2 _ h2)] at h3
  omega

theorem sorted_ext {a b : List ℕ} (ha : a.Pairwise (· < ·)) (hb : b.Pairwise (· < ·)) (h : ∀ x, x ∈ a ↔ x ∈ b) :
    a = b := by
  have pa : a.Nodup := ha.imp (fun h => by omega)
  have pb : b.Nodup := hb.imp (fun h => by omega)
  exact List.Perm.eq_of_pairwise (fun x y _ _ h1 h2 => by omega) ha hb ((List.perm_ext_iff_of_nodup pa pb).2 h)

theorem Vn_comp (k : ℕ) : (Vn n D k).filter (fun x => decide (x ∈ Cn n D k)) = Cn n D k := by
  apply sorted_ext hD ((Vn_sorted hD k).filter _) (Cn_ok hD k).1
  intro x
  rw [List.mem_filter, decide_eq_true_eq]
  exact ⟨fun h => h.2, fun h => ⟨Cn_sub hD h, h⟩⟩

theorem Vn_proof (k : ℕ) : (Vn n D k).filter (fun x => !decide (x ∈ Cn n D k)) = Pn n D k := by
  apply sorted_ext hD ((Vn_sorted hD k).filter _) (Pn_sorted hD k)
  intro x
  rw [List.mem_filter, Vn_cases hD]
  simp only [Bool.not_eq_true', decide_eq_false_iff_not]
  constructor
  · rintro ⟨h | h, h'⟩
    · exact absurd h h'
    · exact h
  · intro h
    exact ⟨.inr h, ((mem_Pn hD).1 h).2.2⟩

/-- The sibling of a node of the proof tree that is no root. -/
theorem Vn_sib {k x : ℕ} (h : x ∈ Vn n D k) (hr : rtOf n k x = false) : x ^^^ 1 ∈ Vn n D k := by
  rcases (mem_Vn hD).1 h with h | h
  · rw [mem_Vn hD, sb_div]; exact .inl h
  · rw [h.2] at hr; simp at hr

theorem Vn_parent {k x : ℕ} (h : x ∈ Vn n D k) (hr : rtOf n k x = false) : x / 2 ∈ Cn n D (k + 1) := by
  rcases (mem_Vn hD).1 h with h | h
  · exact h
  · rw [h.2] at hr; simp at hr

theorem compRows_eq : ∀ (k r : ℕ), compRows n k r (Cn n D r) = (List.range' r k).map fun q => (q, Cn n D q) := by
  intro k
  induction k with
  | zero => intro r; rfl
  | succ k ih =>
    intro r
    rw [compRows, List.range'_succ, List.map_cons]
    congr 1
    exact ih (r + 1)

theorem proofPositions_rows : St.proofPositions n D =
    .ok ((List.range' 0 (St.numRows n + 1)).flatMap (fun q => (Pn n D q).map (posOf (St.numRows n) q)),
      (List.range' 0 (St.numRows n + 1)).flatMap (fun q => (Cn n D q).map (posOf (St.numRows n) q))) := by
  have key := proofRows_eq hD.n62 (St.numRows n + 1) 0 D (by omega) hD.sorted (by simpa using hD.lt)
  rw [map_posOf_zero] at key
  have e := compRows_eq hD (St.numRows n + 1) 0
  rw [Cn] at e
  rw [e, List.flatMap_map, List.flatMap_map] at key
  exact key

/-- Nothing is computed above the top row. -/
theorem Cn_top {k : ℕ} (h : St.numRows n < k) : Cn n D k = [] := by
  rw [List.eq_nil_iff_forall_not_mem]
  intro x hx
  have := (row_le hD.n62 ((Cn_ok hD k).2 x hx)).1
  omega

end

/-- The positions of rows `0` to `k - 1`, in reverse order. -/
def posRev (R : ℕ) (L : ℕ → List ℕ) : ℕ → List ℕ
  | 0 => []
  | k + 1 => (L k).reverse.map (posOf R k) ++ posRev R L k

theorem posRev_eq (R : ℕ) (L : ℕ → List ℕ) (k : ℕ) :
    ((List.range' 0 k).flatMap (fun q => (L q).map (posOf R q))).reverse = posRev R L k := by
  induction k with
  | zero => rfl
  | succ k ih =>
    rw [posRev, ← ih, List.range'_concat, List.flatMap_append, List.reverse_append]
    simp

/-- Proof nodes as the specification sees them: whether the pollard has them, and their hashes. -/
def planRow {H : Type} (A0 : Addr) (v : ℕ → ℕ → H) (k : ℕ) (l : List ℕ) : List (Bool × H) :=
  l.map fun x => ((A0 k x).isSome, v k x)

/-- The proof nodes of rows `0` to `k - 1`, in reverse order. -/
def planRev {H : Type} (A0 : Addr) (v : ℕ → ℕ → H) (L : ℕ → List ℕ) : ℕ → List (Bool × H)
  | 0 => []
  | k + 1 => planRow A0 v k (L k).reverse ++ planRev A0 v L k

theorem planRev_congr {H : Type} {A0 : Addr} {v w : ℕ → ℕ → H} {L : ℕ → List ℕ} (h : ∀ r x, x ∈ L r → v r x = w r x) (k : ℕ) :
    planRev A0 v L k = planRev A0 w L k := by
  induction k with
  | zero => rfl
  | succ k ih =>
    rw [planRev, planRev, ih]
    congr 1
    unfold planRow
    apply List.map_congr_left
    intro x hx
    rw [h k x (List.mem_reverse.1 hx)]

theorem planRev_length {H : Type} (A0 : Addr) (v : ℕ → ℕ → H) (L : ℕ → List ℕ) (k : ℕ) :
    (planRev A0 v L k).length = ((List.range' 0 k).flatMap L).length := by
  induction k with
  | zero => rfl
  | succ k ih =>
    rw [planRev, List.range'_concat, List.flatMap_append, List.length_append, List.length_append, ih]
    simp [planRow, Nat.add_comm]

theorem reads_length {H : Type} {z : H} : ∀ (q : List (Bool × H)) (hs : List H), Reads z q hs → hs.length ≤ q.length
  | [], hs, h => by rw [show hs = [] from h]; exact le_rfl
  | (false, a) :: q, hs, h => by
    obtain ⟨t, rfl, h⟩ := h
    have := reads_length q t h
    simpa using this
  | (true, a) :: q, hs, h => by
    rcases h with ⟨t, rfl, h⟩ | ⟨-, -, h⟩
    · have := reads_length q t h
      simpa using this
    · have := reads_length q hs h
      simp only [List.length_cons]; omega

/-- All hashes given. -/
theorem reads_full {H : Type} (z : H) : ∀ q : List (Bool × H), Reads z q (q.map Prod.snd)
  | [] => rfl
  | (false, a) :: q => ⟨_, rfl, reads_full z q⟩
  | (true, a) :: q => .inl ⟨_, rfl, reads_full z q⟩

/-- The hashes of rows `0` to `k - 1`, in reverse order. -/
def hashRev {H : Type} (c : ℕ → ℕ → H) (L : ℕ → List ℕ) : ℕ → List H
  | 0 => []
  | k + 1 => (L k).reverse.map (c k) ++ hashRev c L k

theorem hashRev_eq {H : Type} (c : ℕ → ℕ → H) (L : ℕ → List ℕ) (k : ℕ) :
    ((List.range' 0 k).flatMap (fun q => (L q).map (c q))).reverse = hashRev c L k := by
  induction k with
  | zero => rfl
  | succ k ih =>
    rw [hashRev, ← ih, List.range'_concat, List.flatMap_append, List.reverse_append]
    simp

theorem planRev_snd {H : Type} (A0 : Addr) (v : ℕ → ℕ → H) (L : ℕ → List ℕ) (k : ℕ) :
    (planRev A0 v L k).map Prod.snd = hashRev v L k := by
  induction k with
  | zero => rfl
  | succ k ih =>
    rw [planRev, hashRev, List.map_append, ih]
    congr 1
    unfold planRow
    rw [List.map_map]; rfl

theorem mem_posRev {R : ℕ} {L : ℕ → List ℕ} {k p : ℕ} (h : p ∈ posRev R L k) : ∃ q x, q < k ∧ x ∈ L q ∧ p = posOf R q x := by
  induction k with
  | zero => simp [posRev] at h
  | succ k ih =>
    rw [posRev, List.mem_append] at h
    rcases h with h | h
    · obtain ⟨x, hx, rfl⟩ := List.mem_map.1 h
      exact ⟨k, x, by omega, List.mem_reverse.1 hx, rfl⟩
    · obtain ⟨q, x, h1, h2, h3⟩ := ih h
      exact ⟨q, x, by omega, h2, h3⟩

theorem head_ne {l : List ℕ} {p : ℕ} (h : ∀ x ∈ l, x ≠ p) : (l.head? == some p) = false := by
  cases l with
  | nil => rfl
  | cons a l =>
    have := h a (by simp)
    simpa using this

end Pol
end Utreexo
