import Mathlib.Logic.Equiv.Basic
import Mathlib.Algebra.Group.End
import Mathlib.Tactic.Ring
import Mathlib.Tactic.Linarith

/-! # Permutations of node indices -/

namespace Utreexo
open Equiv

/-- A permutation of the nodes `k` rows up, acting on a row below by moving whole subtrees. -/
def up (k : Nat) (σ : Perm ℕ) : Perm ℕ where
  toFun x := σ (x / 2 ^ k) * 2 ^ k + x % 2 ^ k
  invFun x := σ.symm (x / 2 ^ k) * 2 ^ k + x % 2 ^ k
  left_inv x := by
    have h : 0 < 2 ^ k := by positivity
    simp only
    rw [show (σ (x / 2 ^ k) * 2 ^ k + x % 2 ^ k) / 2 ^ k = σ (x / 2 ^ k) by
      rw [mul_comm, Nat.mul_add_div h, Nat.div_eq_of_lt (Nat.mod_lt _ h), add_zero],
      show (σ (x / 2 ^ k) * 2 ^ k + x % 2 ^ k) % 2 ^ k = x % 2 ^ k by
      rw [Nat.mul_add_mod_of_lt (Nat.mod_lt _ h)]]
    simp only [symm_apply_apply]
    rw [mul_comm]; exact Nat.div_add_mod _ _
  right_inv x := by
    have h : 0 < 2 ^ k := by positivity
    simp only
    rw [show (σ.symm (x / 2 ^ k) * 2 ^ k + x % 2 ^ k) / 2 ^ k = σ.symm (x / 2 ^ k) by
      rw [mul_comm, Nat.mul_add_div h, Nat.div_eq_of_lt (Nat.mod_lt _ h), add_zero],
      show (σ.symm (x / 2 ^ k) * 2 ^ k + x % 2 ^ k) % 2 ^ k = x % 2 ^ k by
      rw [Nat.mul_add_mod_of_lt (Nat.mod_lt _ h)]]
    simp only [apply_symm_apply]
    rw [mul_comm]; exact Nat.div_add_mod _ _

theorem up_apply (k : Nat) (σ : Perm ℕ) (x : ℕ) : up k σ x = σ (x / 2 ^ k) * 2 ^ k + x % 2 ^ k := rfl

theorem up_inv (k : Nat) (σ : Perm ℕ) : (up k σ)⁻¹ = up k σ⁻¹ := by
  ext x; rfl

theorem up_div (k : Nat) (σ : Perm ℕ) (x : ℕ) : up k σ x / 2 ^ k = σ (x / 2 ^ k) := by
  have h : 0 < 2 ^ k := by positivity
  rw [up_apply, mul_comm, Nat.mul_add_div h, Nat.div_eq_of_lt (Nat.mod_lt _ h), add_zero]

theorem up_mod (k : Nat) (σ : Perm ℕ) (x : ℕ) : up k σ x % 2 ^ k = x % 2 ^ k := by
  have h : 0 < 2 ^ k := by positivity
  rw [up_apply, Nat.mul_add_mod_of_lt (Nat.mod_lt _ h)]

theorem eq_of_div_mod {x y k : ℕ} (h1 : x / 2 ^ k = y / 2 ^ k) (h2 : x % 2 ^ k = y % 2 ^ k) : x = y := by
  rw [← Nat.div_add_mod x (2 ^ k), ← Nat.div_add_mod y (2 ^ k), h1, h2]

theorem up_one (k : Nat) : up k 1 = 1 := by
  ext x
  apply eq_of_div_mod (k := k)
  · rw [up_div]; rfl
  · rw [up_mod]; rfl

theorem up_mul (k : Nat) (σ τ : Perm ℕ) : up k (σ * τ) = up k σ * up k τ := by
  ext x
  apply eq_of_div_mod (k := k)
  · rw [up_div, Perm.mul_apply, Perm.mul_apply, up_div, up_div]
  · rw [up_mod, Perm.mul_apply, up_mod, up_mod]

theorem up_zero (σ : Perm ℕ) : up 0 σ = σ := by
  ext x; rw [up_apply]; simp [Nat.mod_one]

theorem up_up (j k : Nat) (σ : Perm ℕ) : up j (up k σ) = up (j + k) σ := by
  ext x
  apply eq_of_div_mod (k := j + k)
  · rw [up_div, pow_add, ← Nat.div_div_eq_div_mul, up_div, up_div, Nat.div_div_eq_div_mul]
  · rw [up_mod]
    rw [show (2:ℕ) ^ (j + k) = 2 ^ j * 2 ^ k by rw [pow_add], Nat.mod_mul, Nat.mod_mul, up_mod, up_div,
      up_mod]

theorem up_fix {k : Nat} {σ : Perm ℕ} {x : ℕ} (h : σ (x / 2 ^ k) = x / 2 ^ k) : up k σ x = x := by
  apply eq_of_div_mod (k := k)
  · rw [up_div, h]
  · rw [up_mod]

/-- The permutation of executing the given transpositions one after the other. -/
def seqPerm : List (ℕ × ℕ) → Perm ℕ
  | [] => 1
  | (i, j) :: ops => seqPerm ops * swap i j

@[simp] theorem seqPerm_nil : seqPerm [] = 1 := rfl

theorem seqPerm_append (a b : List (ℕ × ℕ)) : seqPerm (a ++ b) = seqPerm b * seqPerm a := by
  induction a with
  | nil => simp
  | cons p a ih => obtain ⟨i, j⟩ := p; simp [seqPerm, ih, mul_assoc]

theorem seqPerm_fix {ops : List (ℕ × ℕ)} {x : ℕ} (h : ∀ p ∈ ops, p.1 ≠ x ∧ p.2 ≠ x) : seqPerm ops x = x := by
  induction ops with
  | nil => rfl
  | cons p a ih =>
    obtain ⟨i, j⟩ := p
    obtain ⟨h1, h2⟩ := h (i, j) (by simp)
    rw [seqPerm, Perm.mul_apply, swap_apply_of_ne_of_ne (Ne.symm h1) (Ne.symm h2)]
    exact ih fun p hp => h p (by simp [hp])

/-- Transpositions that do not touch each other. -/
structure Disj (S : List (ℕ × ℕ)) : Prop where
  fst : (S.map Prod.fst).Nodup
  snd : (S.map Prod.snd).Nodup
  sep : ∀ p ∈ S, ∀ q ∈ S, p.1 ≠ q.2

theorem Disj.tail {p : ℕ × ℕ} {S : List (ℕ × ℕ)} (h : Disj (p :: S)) : Disj S :=
  ⟨(List.nodup_cons.1 h.fst).2, (List.nodup_cons.1 h.snd).2,
    fun a ha b hb => h.sep a (by simp [ha]) b (by simp [hb])⟩

theorem Disj.head {p : ℕ × ℕ} {S : List (ℕ × ℕ)} (h : Disj (p :: S)) :
    ∀ q ∈ S, q.1 ≠ p.1 ∧ q.2 ≠ p.1 ∧ q.1 ≠ p.2 ∧ q.2 ≠ p.2 := by
  intro q hq
  refine ⟨fun e => ?_, Ne.symm (h.sep p (by simp) q (by simp [hq])),
    h.sep q (by simp [hq]) p (by simp), fun e => ?_⟩
  · exact (List.nodup_cons.1 h.fst).1 (e ▸ List.mem_map_of_mem hq)
  · exact (List.nodup_cons.1 h.snd).1 (e ▸ List.mem_map_of_mem hq)

theorem seqPerm_fst {S : List (ℕ × ℕ)} (h : Disj S) {s w : ℕ} (hm : (s, w) ∈ S) : seqPerm S s = w := by
  induction S with
  | nil => simp at hm
  | cons p S ih =>
    obtain ⟨i, j⟩ := p
    rw [seqPerm, Perm.mul_apply]
    rcases List.mem_cons.1 hm with e | hm'
    · cases e
      rw [swap_apply_left, seqPerm_fix]
      intro q hq; exact ⟨(h.head q hq).2.2.1, (h.head q hq).2.2.2⟩
    · have := h.head _ hm'
      rw [swap_apply_of_ne_of_ne this.1 this.2.2.1]
      exact ih h.tail hm'

theorem seqPerm_snd {S : List (ℕ × ℕ)} (h : Disj S) {s w : ℕ} (hm : (s, w) ∈ S) : seqPerm S w = s := by
  induction S with
  | nil => simp at hm
  | cons p S ih =>
    obtain ⟨i, j⟩ := p
    rw [seqPerm, Perm.mul_apply]
    rcases List.mem_cons.1 hm with e | hm'
    · cases e
      rw [swap_apply_right, seqPerm_fix]
      intro q hq; exact ⟨(h.head q hq).1, (h.head q hq).2.1⟩
    · have := h.head _ hm'
      rw [swap_apply_of_ne_of_ne this.2.1 this.2.2.2]
      exact ih h.tail hm'

/-- Either untouched or one end of a transposition. -/
theorem mem_or_fix (S : List (ℕ × ℕ)) (x : ℕ) :
    (∃ w, (x, w) ∈ S) ∨ (∃ s, (s, x) ∈ S) ∨ ∀ p ∈ S, p.1 ≠ x ∧ p.2 ≠ x := by
  by_cases h1 : ∃ w, (x, w) ∈ S
  · exact .inl h1
  by_cases h2 : ∃ s, (s, x) ∈ S
  · exact .inr (.inl h2)
  right; right
  intro p hp
  exact ⟨fun e => h1 ⟨p.2, e ▸ hp⟩, fun e => h2 ⟨p.1, e ▸ hp⟩⟩

/-- Disjoint transpositions form an involution. -/
theorem seqPerm_invol {S : List (ℕ × ℕ)} (h : Disj S) : (seqPerm S)⁻¹ = seqPerm S := by
  ext x
  rw [Perm.inv_eq_iff_eq]
  rcases mem_or_fix S x with ⟨w, hw⟩ | ⟨s, hs⟩ | hf
  · rw [seqPerm_fst h hw, seqPerm_snd h hw]
  · rw [seqPerm_snd h hs, seqPerm_fst h hs]
  · rw [seqPerm_fix hf, seqPerm_fix hf]

end Utreexo
