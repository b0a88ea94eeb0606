import Verif.Proof.Size
import Verif.Proof.PolApi
import Mathlib.Data.List.Sort

/-!
# Proof nodes of a growing forest

Used for C83.
-/

set_option linter.unusedSectionVars false

namespace Utreexo
open Spec Equiv Size Pol

variable {H : Type} [DecidableEq H] [HashOps H]

namespace Shelf

/-- Row by row, from left to right. -/
def Lex (a b : ℕ × ℕ) : Prop := a.1 < b.1 ∨ (a.1 = b.1 ∧ a.2 < b.2)

theorem InForest.mono {n m r i : ℕ} (h : InForest n r i) (hm : n ≤ m) : InForest m r i := le_trans h hm

/-- The order of positions is row by row. -/
theorem lex {n : ℕ} (hn : n ≤ 2 ^ 62) {T : List ℕ} {nodes : List (ℕ × ℕ)}
    (hs : nodes.Pairwise (fun a b => posOf (St.numRows n) a.1 a.2 < posOf (St.numRows n) b.1 b.2))
    (hm : ∀ r k, (r, k) ∈ nodes ↔ ProofNode n T r k) : nodes.Pairwise Lex := by
  refine hs.imp_of_mem ?_
  rintro ⟨r, i⟩ ⟨s, j⟩ ha hb hlt
  have h1 : i < n / 2 ^ r := Pol.ProofNode.inn ((hm _ _).1 ha)
  have h2 : j < n / 2 ^ s := Pol.ProofNode.inn ((hm _ _).1 hb)
  have hR : n ≤ 2 ^ St.numRows n := le_two_pow_numRows (by omega)
  have bd : ∀ {q x : ℕ}, x < n / 2 ^ q → x < 2 ^ (St.numRows n - q) := by
    intro q x hx
    have hx1 : (x + 1) * 2 ^ q ≤ n := (Nat.le_div_iff_mul_le (by positivity)).1 hx
    have hx2 : (x + 1) * 2 ^ q ≤ 2 ^ St.numRows n := le_trans hx1 hR
    have hq : q ≤ St.numRows n := by
      by_contra hc
      have : 2 ^ St.numRows n < 2 ^ q := Nat.pow_lt_pow_right (by omega) (by omega)
      have : 1 * 2 ^ q ≤ (x + 1) * 2 ^ q := Nat.mul_le_mul_right _ (by omega)
      omega
    rw [show St.numRows n = (St.numRows n - q) + q by omega, Nat.pow_add] at hx2
    exact Nat.le_of_mul_le_mul_right hx2 (by positivity)
  unfold Lex
  rcases Nat.lt_trichotomy r s with h | h | h
  · exact .inl h
  · subst h
    right
    refine ⟨rfl, ?_⟩
    unfold posOf at hlt
    exact Nat.lt_of_add_lt_add_left hlt
  · have := posOf_lt_of_row_lt (R := St.numRows n) (j := i) (bd h2) h
    simp only at hlt
    omega

theorem Lex.antisymm {a b : ℕ × ℕ} (h1 : Lex a b) (h2 : Lex b a) : a = b := by
  unfold Lex at h1 h2
  omega

theorem nodup {l : List (ℕ × ℕ)} (h : l.Pairwise Lex) : l.Nodup := by
  refine h.imp ?_
  rintro a b h rfl
  unfold Lex at h
  omega

theorem ext {l l' : List (ℕ × ℕ)} (h : l.Pairwise Lex) (h' : l'.Pairwise Lex) (hm : ∀ a, a ∈ l ↔ a ∈ l') : l = l' :=
  List.Perm.eq_of_pairwise (fun _ _ _ _ h1 h2 => h1.antisymm h2) h h' ((List.perm_ext_iff_of_nodup (nodup h) (nodup h')).2 hm)

theorem sub {l l' : List (ℕ × ℕ)} (h : l.Pairwise Lex) (h' : l'.Pairwise Lex) (hm : ∀ a ∈ l, a ∈ l') : l.Sublist l' := by
  have : l = l'.filter fun a => decide (a ∈ l) := by
    refine ext h (h'.filter _) ?_
    intro a
    rw [List.mem_filter, decide_eq_true_eq]
    exact ⟨fun ha => ⟨hm a ha, ha⟩, fun ha => ha.2⟩
  rw [this]
  exact List.filter_sublist

theorem node_mono {n m : ℕ} (hm : n ≤ m) {T : List ℕ} {r k : ℕ} (h : ProofNode n T r k) : ProofNode m T r k := by
  obtain ⟨j, b, hb, e, hj, h⟩ := h
  exact ⟨j, b, hb, e, InForest.mono hj hm, h⟩

theorem node_congr {n m : ℕ} {T : List ℕ} (h : ∀ a ∈ T, ∀ r, InForest n r (a / 2 ^ r) ↔ InForest m r (a / 2 ^ r)) (r k : ℕ) :
    ProofNode n T r k ↔ ProofNode m T r k := by
  unfold ProofNode
  have up : ∀ {a j b : ℕ}, b < 2 → a / 2 ^ r = 2 * j + b → a / 2 ^ (r + 1) = j := by
    intro a j b hb he
    rw [Nat.pow_succ, ← Nat.div_div_eq_div_mul, he]; omega
  constructor
  · rintro ⟨j, b, hb, e, hj, ⟨a, ha, he⟩, hno⟩
    refine ⟨j, b, hb, e, ?_, ⟨a, ha, he⟩, hno⟩
    rw [← up hb he] at hj ⊢
    exact (h a ha _).1 hj
  · rintro ⟨j, b, hb, e, hj, ⟨a, ha, he⟩, hno⟩
    refine ⟨j, b, hb, e, ?_, ⟨a, ha, he⟩, hno⟩
    rw [← up hb he] at hj ⊢
    exact (h a ha _).2 hj

/-- A leaf of the tree of height `t` has exactly the ancestors up to row `t`. -/
theorem inForest_iff_le {n t a r : ℕ} (h : InTree n t a) : InForest n r (a / 2 ^ r) ↔ r ≤ t := by
  cases r with
  | zero => simp [InForest]; have := inTree_lt h; omega
  | succ r => rw [inForest_tree h]; omega

/-- The tree of a leaf is the same in both forests if and only if its ancestors are. -/
theorem keeps_iff {n m t a : ℕ} (h : InTree n t a) (ha : a < m) :
    InTree m t a ↔ ∀ r, InForest n r (a / 2 ^ r) ↔ InForest m r (a / 2 ^ r) := by
  obtain ⟨s, hs⟩ := exists_tree ha
  constructor
  · intro h' r
    rw [inForest_iff_le h, inForest_iff_le h']
  · intro h'
    have h1 := (h' t).1 ((inForest_iff_le h).2 (le_refl _))
    have h2 := (h' s).2 ((inForest_iff_le hs).2 (le_refl _))
    rw [inForest_iff_le hs] at h1
    rw [inForest_iff_le h] at h2
    obtain rfl : t = s := by omega
    exact hs

/-- If the tree of a target is merged then a node is added to the proof. -/
theorem extra {n m : ℕ} (hm : n ≤ m) {T : List ℕ} (hT : ∀ a ∈ T, a < n) {a t : ℕ} (ha : a ∈ T) (h : InTree n t a) (hn : ¬ InTree m t a) :
    ∃ r k, ProofNode m T r k ∧ ¬ ProofNode n T r k := by
  classical
  -- the smallest tree that is merged
  have hex : ∃ t, ∃ a ∈ T, InTree n t a ∧ ¬ InTree m t a := ⟨t, a, ha, h, hn⟩
  obtain ⟨a, ha, h, hn⟩ := Nat.find_spec hex
  have hmin := fun {s : ℕ} (hs : s < Nat.find hex) => Nat.find_min hex hs
  generalize Nat.find hex = t at *
  have higher : ∀ {b s : ℕ}, b ∈ T → InTree n s b → ¬ InTree m s b → InForest m (s + 1) (b / 2 ^ (s + 1)) := by
    intro b s hb hs hns
    obtain ⟨s', hs'⟩ := exists_tree (lt_of_lt_of_le (hT b hb) hm)
    rw [inForest_tree hs']
    have h1 := InForest.mono ((inForest_iff_le hs).2 (le_refl s)) hm
    rw [inForest_iff_le hs'] at h1
    rcases Nat.lt_or_ge s s' with h2 | h2
    · exact h2
    · obtain rfl : s = s' := by omega
      exact absurd hs' hns
  have hup := higher ha h hn
  have htop := top_idx h
  have hev : a / 2 ^ t % 2 = 0 := by
    have := (inTree_iff.1 h).2.1
    rw [← Bool.not_eq_true, Nat.testBit_eq_decide_div_mod_eq, decide_eq_true_eq] at this
    omega
  have hlt := inTree_lt' h
  have e2 : a / 2 ^ (t + 1) = a / 2 ^ t / 2 := by rw [Nat.pow_succ, ← Nat.div_div_eq_div_mul]
  have hnot : ¬ InForest n (t + 1) (a / 2 ^ (t + 1)) := by rw [inForest_tree h]; omega
  refine ⟨t, a / 2 ^ t + 1, ⟨a / 2 ^ (t + 1), 0, by omega, by omega, hup, ⟨a, ha, by omega⟩, ?_⟩, ?_⟩
  · intro b hb he
    obtain ⟨s, hs⟩ := exists_tree (hT b hb)
    have hst : s < t := by
      by_contra hc
      have := (inForest_iff_le (r := t) hs).2 (by omega)
      rw [inForest_iff, he] at this
      omega
    have hb1 : b / 2 ^ (t + 1) = a / 2 ^ (t + 1) := by
      rw [e2, Nat.pow_succ, ← Nat.div_div_eq_div_mul, he]; omega
    apply hmin hst
    refine ⟨b, hb, hs, ?_⟩
    intro hc
    rw [← hb1, inForest_tree hc] at hup
    omega
  · rintro ⟨j, b, hb, e, hj, -⟩
    apply hnot
    rw [show a / 2 ^ (t + 1) = j by omega]
    exact hj

end Shelf

end Utreexo
