import Verif.Spec.Size
import Verif.Proof.ProofPos
import Mathlib.Data.Finset.Card
import Mathlib.Data.Finset.Prod
import Mathlib.Data.Finset.Range
import Mathlib.Algebra.Order.BigOperators.Group.Finset

/-!
# The number of hashes in a proof
-/

namespace Utreexo
open Spec

namespace Size

variable {n : ℕ} {T : List ℕ}

theorem div_up (a r : ℕ) : a / 2 ^ (r + 1) = a / 2 ^ r / 2 := by rw [Nat.pow_succ, ← Nat.div_div_eq_div_mul]

theorem inForest_child {r k : ℕ} (h : InForest n (r + 1) k) : InForest n r (2 * k) ∧ InForest n r (2 * k + 1) := by
  rw [inForest_iff, div_up] at h
  rw [inForest_iff, inForest_iff]
  omega

theorem above_parent {r k : ℕ} (h : Above n T r k) (hp : InForest n (r + 1) (k / 2)) : Above n T (r + 1) (k / 2) := by
  obtain ⟨-, a, ha, e⟩ := h
  exact ⟨hp, a, ha, by rw [div_up, e]⟩

/-- A node of the proof and its sibling. -/
theorem proofNode_iff {r k : ℕ} : ProofNode n T r k ↔
    InForest n (r + 1) (k / 2) ∧ Above n T (r + 1) (k / 2) ∧ ¬ Above n T r k := by
  constructor
  · rintro ⟨j, b, hb, rfl, hj, ⟨a, ha, e⟩, hn⟩
    have e1 : (2 * j + (1 - b)) / 2 = j := by omega
    rw [e1]
    refine ⟨hj, ⟨hj, a, ha, by rw [div_up, e]; omega⟩, ?_⟩
    rintro ⟨-, a', ha', e'⟩
    exact hn a' ha' e'
  · rintro ⟨h1, ⟨-, a, ha, e⟩, h3⟩
    have hk : InForest n r k := by
      have := inForest_child h1
      rcases Nat.mod_two_eq_zero_or_one k with h | h
      · have e : 2 * (k / 2) = k := by omega
        rw [e] at this; exact this.1
      · have e : 2 * (k / 2) + 1 = k := by omega
        rw [e] at this; exact this.2
    have hn : ∀ a ∈ T, a / 2 ^ r ≠ k := fun a ha e => h3 ⟨hk, a, ha, e⟩
    rw [div_up] at e
    have := hn a ha
    exact ⟨k / 2, 1 - k % 2, by omega, by omega, h1, ⟨a, ha, by omega⟩, hn⟩

/-- Two nodes of the proof have no common leaf below them. -/
theorem proofNode_disjoint {r k q i : ℕ} (h1 : ProofNode n T r k) (h2 : ProofNode n T q i) {x : ℕ} (hx : x / 2 ^ r = k)
    (hx' : x / 2 ^ q = i) : r = q ∧ k = i := by
  have key : ∀ {r k q i : ℕ}, ProofNode n T r k → ProofNode n T q i → x / 2 ^ r = k → x / 2 ^ q = i → ¬ r < q := by
    intro r k q i h1 h2 hx hx' hlt
    obtain ⟨-, ⟨-, a, ha, e⟩, -⟩ := proofNode_iff.1 h1
    obtain ⟨h3, -, h4⟩ := proofNode_iff.1 h2
    apply h4
    have hi : InForest n q i := by
      have := inForest_child h3
      rcases Nat.mod_two_eq_zero_or_one i with h | h
      · have e : 2 * (i / 2) = i := by omega
        rw [e] at this; exact this.1
      · have e : 2 * (i / 2) + 1 = i := by omega
        rw [e] at this; exact this.2
    refine ⟨hi, a, ha, ?_⟩
    obtain ⟨d, rfl⟩ : ∃ d, q = r + 1 + d := ⟨q - (r + 1), by omega⟩
    rw [Nat.pow_add, ← Nat.div_div_eq_div_mul, e, ← hx, ← div_up, Nat.div_div_eq_div_mul, ← Nat.pow_add, hx']
  have a1 := key h1 h2 hx hx'
  have a2 := key h2 h1 hx' hx
  have : r = q := by omega
  subst this
  exact ⟨rfl, by rw [← hx, hx']⟩

/-! ## The proof serves -/

theorem above_computable {S : List (ℕ × ℕ)} (hS : ∀ r k, (r, k) ∈ S ↔ ProofNode n T r k) : ∀ (r k : ℕ), Above n T r k →
    Computable n (fun q i => (q, i) ∈ S ∨ (q = 0 ∧ i ∈ T)) r k
  | 0, k, ⟨_, a, ha, e⟩ => .given (.inr ⟨rfl, by simpa [← e] using ha⟩)
  | r + 1, k, h => by
    obtain ⟨c1, c2⟩ := inForest_child h.1
    have each : ∀ k', InForest n r k' → k' / 2 = k → Computable n (fun q i => (q, i) ∈ S ∨ (q = 0 ∧ i ∈ T)) r k' := by
      intro k' hk' e
      by_cases ha : Above n T r k'
      · exact above_computable hS r k' ha
      · exact .given (.inl ((hS r k').2 (proofNode_iff.2 (by rw [e]; exact ⟨h.1, h, ha⟩))))
    exact .parent h.1 (each _ c1 (by omega)) (each _ c2 (by omega))

theorem serves {S : List (ℕ × ℕ)} (hS : ∀ r k, (r, k) ∈ S ↔ ProofNode n T r k) : Serves n T S :=
  ⟨fun r k h => (proofNode_iff.1 ((hS r k).1 h)).2.2, fun r k h _ => above_computable hS r k h⟩

/-! ## It is the smallest that serves -/

theorem computable_above {S : List (ℕ × ℕ)} (h : Serves n T S) : ∀ (d r k : ℕ), n ≤ 2 ^ (r + d) → Above n T r k →
    Computable n (fun q i => (q, i) ∈ S ∨ (q = 0 ∧ i ∈ T)) r k := by
  intro d
  induction d with
  | zero =>
    intro r k hn ha
    refine h.tops r k ha ?_
    intro hc
    rw [inForest_iff] at hc
    have : n / 2 ^ (r + 1) = 0 := Nat.div_eq_of_lt (lt_of_le_of_lt hn (Nat.pow_lt_pow_right (by omega) (by omega)))
    omega
  | succ d ih =>
    intro r k hn ha
    by_cases hp : InForest n (r + 1) (k / 2)
    · have h1 := above_parent ha hp
      have h2 := ih (r + 1) (k / 2) (by rw [show r + 1 + d = r + (d + 1) by omega]; exact hn) h1
      cases h2 with
      | given hg =>
        rcases hg with hg | hg
        · exact absurd h1 (h.fair _ _ hg)
        · omega
      | parent _ c1 c2 =>
        rcases Nat.mod_two_eq_zero_or_one k with hk | hk
        · rwa [show k = 2 * (k / 2) by omega]
        · rwa [show k = 2 * (k / 2) + 1 by omega]
    · exact h.tops r k ha hp

/-- A computable node with no target below needs something of the proof below it. -/
theorem needs {S : List (ℕ × ℕ)} {r k : ℕ} (h : Computable n (fun q i => (q, i) ∈ S ∨ (q = 0 ∧ i ∈ T)) r k)
    (hn : ∀ a ∈ T, a / 2 ^ r ≠ k) : ∃ q i, (q, i) ∈ S ∧ i * 2 ^ q / 2 ^ r = k := by
  induction h with
  | @given r k hg =>
    rcases hg with hg | ⟨rfl, hg⟩
    · exact ⟨r, k, hg, Nat.mul_div_cancel _ (by positivity)⟩
    · exact absurd (by simp) (hn k hg)
  | @parent r k _ _ _ ih _ =>
    obtain ⟨q, i, h1, h2⟩ := ih fun a ha e => hn a ha (by rw [div_up, e]; omega)
    exact ⟨q, i, h1, by rw [div_up, h2]; omega⟩

theorem proofNode_needs {S : List (ℕ × ℕ)} (h : Serves n T S) {r k : ℕ} (hp : ProofNode n T r k) :
    ∃ q i, (q, i) ∈ S ∧ i * 2 ^ q / 2 ^ r = k := by
  obtain ⟨h1, h2, h3⟩ := proofNode_iff.1 hp
  obtain ⟨m, hm⟩ : ∃ m, n ≤ 2 ^ (r + 1 + m) := ⟨n, le_of_lt (lt_of_lt_of_le Nat.lt_two_pow_self (Nat.pow_le_pow_right (by omega) (by omega)))⟩
  have hc := computable_above h m (r + 1) (k / 2) hm h2
  have hk : Computable n (fun q i => (q, i) ∈ S ∨ (q = 0 ∧ i ∈ T)) r k := by
    cases hc with
    | given hg =>
      rcases hg with hg | hg
      · exact absurd h2 (h.fair _ _ hg)
      · omega
    | parent _ c1 c2 =>
      rcases Nat.mod_two_eq_zero_or_one k with hk | hk
      · rwa [show k = 2 * (k / 2) by omega]
      · rwa [show k = 2 * (k / 2) + 1 by omega]
  obtain ⟨j, b, -, -, -, -, hno⟩ := hp
  exact needs hk hno

theorem minimal {N S : List (ℕ × ℕ)} (hN : N.Nodup) (hm : ∀ r k, (r, k) ∈ N → ProofNode n T r k) (h : Serves n T S) :
    N.length ≤ S.length := by
  classical
  have hex : ∀ p : ℕ × ℕ, ∃ s : ℕ × ℕ, p ∈ N → s ∈ S ∧ s.2 * 2 ^ s.1 / 2 ^ p.1 = p.2 := by
    rintro ⟨r, k⟩
    by_cases hp : (r, k) ∈ N
    · obtain ⟨q, i, h1, h2⟩ := proofNode_needs h (hm r k hp)
      exact ⟨(q, i), fun _ => ⟨h1, h2⟩⟩
    · exact ⟨(0, 0), fun h => absurd h hp⟩
  choose f hf using hex
  have h1 : N.toFinset.card ≤ S.toFinset.card := by
    apply Finset.card_le_card_of_injOn f
    · intro p hp
      simp only [Finset.mem_coe, List.mem_toFinset] at hp ⊢
      exact (hf p hp).1
    · rintro ⟨r, k⟩ hp ⟨q, i⟩ hq e
      simp only [Finset.mem_coe, List.mem_toFinset] at hp hq
      have a1 := (hf _ hp).2
      have a2 := (hf _ hq).2
      rw [← e] at a2
      obtain ⟨rfl, rfl⟩ := proofNode_disjoint (hm _ _ hp) (hm _ _ hq) a1 a2
      rfl
  rw [List.toFinset_card_of_nodup hN] at h1
  exact h1.trans (List.toFinset_card_le _)

/-! ## Bounds -/

theorem le_rest {N : List (ℕ × ℕ)} (hN : N.Nodup) (hm : ∀ r k, (r, k) ∈ N → ProofNode n T r k) (hT : T.Nodup) (hb : ∀ t ∈ T, t < n) :
    N.length + T.length ≤ n := by
  classical
  have h1 : N.toFinset.card ≤ (Finset.range n \ T.toFinset).card := by
    apply Finset.card_le_card_of_injOn fun p => p.2 * 2 ^ p.1
    · rintro ⟨r, k⟩ hp
      simp only [Finset.mem_coe, List.mem_toFinset] at hp
      simp only [Finset.coe_sdiff, Set.mem_sdiff, Finset.mem_coe, Finset.mem_range, List.mem_toFinset]
      have h := hm r k hp
      obtain ⟨j, b, -, -, -, -, hno⟩ := id h
      obtain ⟨h1, -, -⟩ := proofNode_iff.1 h
      constructor
      · unfold InForest at h1
        rw [Nat.pow_succ] at h1
        have hp0 : 0 < 2 ^ r := by positivity
        have : k * 2 ^ r < (k / 2 + 1) * (2 ^ r * 2) := by
          calc k * 2 ^ r < (k + 1) * 2 ^ r := Nat.mul_lt_mul_of_pos_right (by omega) hp0
            _ ≤ ((k / 2 + 1) * 2) * 2 ^ r := Nat.mul_le_mul_right _ (by omega)
            _ = (k / 2 + 1) * (2 ^ r * 2) := by rw [Nat.mul_assoc, Nat.mul_comm 2]
        omega
      · intro hc
        exact hno _ hc (Nat.mul_div_cancel _ (by positivity))
    · rintro ⟨r, k⟩ hp ⟨q, i⟩ hq e
      simp only [Finset.mem_coe, List.mem_toFinset] at hp hq
      dsimp only at e
      obtain ⟨rfl, rfl⟩ := proofNode_disjoint (hm _ _ hp) (hm _ _ hq) (Nat.mul_div_cancel k (by positivity))
        (by rw [e]; exact Nat.mul_div_cancel i (by positivity))
      rfl
  have h2 : T.toFinset ⊆ Finset.range n := by
    intro t ht
    exact Finset.mem_range.2 (hb t (List.mem_toFinset.1 ht))
  rw [Finset.card_sdiff_of_subset h2, Finset.card_range, List.toFinset_card_of_nodup hN, List.toFinset_card_of_nodup hT] at h1
  have h3 := Finset.card_le_card h2
  rw [Finset.card_range, List.toFinset_card_of_nodup hT] at h3
  omega

theorem inTree_lt' {t a : ℕ} (h : InTree n t a) : a / 2 ^ t < n / 2 ^ t := by
  rw [inTree_iff, ← Bool.not_eq_true] at h
  obtain ⟨h1, h2, h3⟩ := h
  rw [div_up, div_up] at h3
  rw [Nat.testBit_eq_decide_div_mod_eq, decide_eq_true_eq] at h1 h2
  omega

theorem inForest_tree {t a r : ℕ} (h : InTree n t a) : InForest n (r + 1) (a / 2 ^ (r + 1)) ↔ r < t := by
  have h1 := inTree_lt' h
  rw [inTree_iff] at h
  have cut : ∀ d q : ℕ, a / 2 ^ (q + d) = a / 2 ^ q / 2 ^ d ∧ n / 2 ^ (q + d) = n / 2 ^ q / 2 ^ d := fun d q => by
    rw [Nat.pow_add, ← Nat.div_div_eq_div_mul, ← Nat.div_div_eq_div_mul]; exact ⟨rfl, rfl⟩
  rw [inForest_iff]
  constructor
  · intro hlt
    by_contra hc
    obtain ⟨d, e⟩ : ∃ d, r + 1 = t + 1 + d := ⟨r - t, by omega⟩
    rw [e, (cut d (t + 1)).1, (cut d (t + 1)).2, h.2.2] at hlt
    omega
  · intro hlt
    by_contra hc
    obtain ⟨d, e⟩ : ∃ d, t = r + 1 + d := ⟨t - (r + 1), by omega⟩
    have h3 : n / 2 ^ t ≤ a / 2 ^ t := by
      rw [e, (cut d (r + 1)).1, (cut d (r + 1)).2]
      exact Nat.div_le_div_right (by omega)
    omega

theorem le_heights {N : List (ℕ × ℕ)} (hN : N.Nodup) (hm : ∀ r k, (r, k) ∈ N → ProofNode n T r k) (height : ℕ → ℕ)
    (hh : ∀ t ∈ T, InTree n (height t) t) : N.length ≤ (T.map height).sum := by
  classical
  have hex : ∀ p : ℕ × ℕ, ∃ a : ℕ, p ∈ N → a ∈ T ∧ p.1 < height a ∧ a / 2 ^ p.1 ≠ p.2 ∧ a / 2 ^ p.1 / 2 = p.2 / 2 := by
    rintro ⟨r, k⟩
    by_cases hp : (r, k) ∈ N
    · have h := hm r k hp
      obtain ⟨j, b, -, -, -, -, hno⟩ := id h
      obtain ⟨h1, ⟨-, a, ha, e⟩, -⟩ := proofNode_iff.1 h
      refine ⟨a, fun _ => ⟨ha, ?_, hno a ha, by rw [← div_up, e]⟩⟩
      rw [← e] at h1
      exact (inForest_tree (hh a ha)).1 h1
    · exact ⟨0, fun h => absurd h hp⟩
  choose f hf using hex
  have h1 : N.toFinset.card ≤ (T.toFinset.sigma fun a => Finset.range (height a)).card := by
    apply Finset.card_le_card_of_injOn fun p => (⟨f p, p.1⟩ : (_ : ℕ) × ℕ)
    · intro p hp
      simp only [Finset.mem_coe, List.mem_toFinset] at hp
      simp only [Finset.mem_coe, Finset.mem_sigma, List.mem_toFinset, Finset.mem_range]
      exact ⟨(hf p hp).1, (hf p hp).2.1⟩
    · rintro ⟨r, k⟩ hp ⟨q, i⟩ hq e
      simp only [Finset.mem_coe, List.mem_toFinset] at hp hq
      simp only [Sigma.mk.injEq, heq_eq_eq] at e
      obtain ⟨e1, rfl⟩ := e
      have a1 := (hf _ hp).2.2
      have a2 := (hf _ hq).2.2
      rw [← e1] at a2
      simp only [Prod.mk.injEq, true_and]
      dsimp only at a1 a2
      omega
  rw [List.toFinset_card_of_nodup hN, Finset.card_sigma] at h1
  simp only [Finset.card_range] at h1
  refine h1.trans ?_
  have : ∀ l : List ℕ, ∑ a ∈ l.toFinset, height a ≤ (l.map height).sum := by
    intro l
    induction l with
    | nil => simp
    | cons a l ih =>
      rw [List.toFinset_cons, List.map_cons, List.sum_cons]
      by_cases ha : a ∈ l.toFinset
      · rw [Finset.insert_eq_of_mem ha]; omega
      · rw [Finset.sum_insert ha]; omega
  exact this T

theorem union {A B : List ℕ} {NA NB N : List (ℕ × ℕ)} (hN : N.Nodup) (hA : ∀ r k, (r, k) ∈ NA ↔ ProofNode n A r k)
    (hB : ∀ r k, (r, k) ∈ NB ↔ ProofNode n B r k) (hm : ∀ r k, (r, k) ∈ N → ProofNode n T r k) (hT : ∀ t ∈ T, t ∈ A ∨ t ∈ B)
    (hA' : ∀ t ∈ A, t ∈ T) (hB' : ∀ t ∈ B, t ∈ T) : N.length ≤ NA.length + NB.length := by
  rw [← List.length_append]
  refine (hN.subperm ?_).length_le
  rintro ⟨r, k⟩ hp
  obtain ⟨j, b, hb, e, hj, ⟨a, ha, ea⟩, hno⟩ := hm r k hp
  rw [List.mem_append, hA, hB]
  rcases hT a ha with h | h
  · exact .inl ⟨j, b, hb, e, hj, ⟨a, h, ea⟩, fun a ha => hno a (hA' a ha)⟩
  · exact .inr ⟨j, b, hb, e, hj, ⟨a, h, ea⟩, fun a ha => hno a (hB' a ha)⟩

theorem single {t a : ℕ} (h : InTree n t a) {r : ℕ} (hr : r < t) :
    ProofNode n [a] r (2 * (a / 2 ^ (r + 1)) + (1 - a / 2 ^ r % 2)) := by
  refine ⟨a / 2 ^ (r + 1), a / 2 ^ r % 2, Nat.mod_lt _ (by omega), rfl, (inForest_tree h).2 hr, ⟨a, by simp, ?_⟩, ?_⟩
  · rw [div_up]; omega
  · intro b hb
    rw [List.mem_singleton.1 hb, div_up]
    omega

/-! ## The number of nodes to compute -/

theorem inForest_of_parent {r k : ℕ} (h : InForest n (r + 1) (k / 2)) : InForest n r k := by
  have := inForest_child h
  rcases Nat.mod_two_eq_zero_or_one k with h | h
  · have e : 2 * (k / 2) = k := by omega
    rw [e] at this; exact this.1
  · have e : 2 * (k / 2) + 1 = k := by omega
    rw [e] at this; exact this.2

theorem top_iff {t a r : ℕ} (h : InTree n t a) : (InForest n r (a / 2 ^ r) ∧ ¬ InForest n (r + 1) (a / 2 ^ r / 2)) ↔ r = t := by
  rw [← div_up, inForest_tree h]
  constructor
  · rintro ⟨h1, h2⟩
    cases r with
    | zero => omega
    | succ r => have := (inForest_tree h).1 h1; omega
  · rintro rfl
    refine ⟨?_, by omega⟩
    rw [inForest_iff]
    exact inTree_lt' h

theorem top_idx {t a : ℕ} (h : InTree n t a) : a / 2 ^ t = n / 2 ^ t - 1 := by
  rw [inTree_iff, ← Bool.not_eq_true] at h
  obtain ⟨h1, h2, h3⟩ := h
  rw [div_up, div_up] at h3
  rw [Nat.testBit_eq_decide_div_mod_eq, decide_eq_true_eq] at h1 h2
  generalize a / 2 ^ t = x at *
  generalize n / 2 ^ t = y at *
  omega

open Classical in
theorem count {C P : Finset (ℕ × ℕ)} (hC : ∀ r k, (r, k) ∈ C ↔ Above n T r k) (hP : ∀ r k, (r, k) ∈ P ↔ ProofNode n T r k)
    (hT : T.Nodup) (height : ℕ → ℕ) (hh : ∀ t ∈ T, InTree n (height t) t) :
    P.card + 2 * T.length = C.card + (T.map height).dedup.length := by
  -- the targets
  have h0 : (C.filter fun p => p.1 = 0).card = T.length := by
    rw [← List.toFinset_card_of_nodup hT]
    apply Finset.card_bij (fun p _ => p.2)
    · rintro ⟨r, k⟩ hp
      simp only [Finset.mem_filter, hC] at hp
      obtain ⟨⟨-, a, ha, e⟩, rfl⟩ := hp
      simp only [pow_zero, Nat.div_one] at e
      subst e
      exact List.mem_toFinset.2 ha
    · rintro ⟨r, k⟩ hp ⟨q, i⟩ hq e
      simp only [Finset.mem_filter] at hp hq
      exact Prod.ext (hp.2.trans hq.2.symm) e
    · intro a ha
      rw [List.mem_toFinset] at ha
      have := inTree_lt (hh a ha)
      exact ⟨(0, a), by simp only [Finset.mem_filter, hC, and_true]; exact ⟨by unfold InForest; omega, a, ha, by simp⟩, rfl⟩
  -- the tops
  have h1 : (C.filter fun p => ¬ InForest n (p.1 + 1) (p.2 / 2)).card = (T.map height).dedup.length := by
    rw [← List.card_toFinset]
    apply Finset.card_bij (fun p _ => p.1)
    · rintro ⟨r, k⟩ hp
      simp only [Finset.mem_filter, hC] at hp
      obtain ⟨⟨h1, a, ha, rfl⟩, h2⟩ := hp
      rw [List.mem_toFinset, List.mem_map]
      exact ⟨a, ha, ((top_iff (hh a ha)).1 ⟨h1, h2⟩).symm⟩
    · rintro ⟨r, k⟩ hp ⟨q, i⟩ hq e
      simp only [Finset.mem_filter, hC] at hp hq
      dsimp only at e
      subst e
      obtain ⟨⟨h1, a, ha, rfl⟩, h2⟩ := hp
      obtain ⟨⟨h3, b, hb, rfl⟩, h4⟩ := hq
      have e1 := (top_iff (hh a ha)).1 ⟨h1, h2⟩
      have e2 := (top_iff (hh b hb)).1 ⟨h3, h4⟩
      have t1 := hh a ha
      have t2 := hh b hb
      rw [← e1] at t1
      rw [← e2] at t2
      rw [top_idx t1, top_idx t2]
    · intro r hr
      rw [List.mem_toFinset, List.mem_map] at hr
      obtain ⟨a, ha, rfl⟩ := hr
      obtain ⟨h1, h2⟩ := (top_iff (hh a ha)).2 rfl
      exact ⟨(height a, a / 2 ^ height a), by simp only [Finset.mem_filter, hC]; exact ⟨⟨h1, a, ha, rfl⟩, h2⟩, rfl⟩
  -- the children of the others
  have h2 : ((C.filter fun p => ¬ p.1 = 0) ×ˢ Finset.range 2).card = ((C ∪ P).filter fun p => InForest n (p.1 + 1) (p.2 / 2)).card := by
    apply Finset.card_bij (fun p _ => (p.1.1 - 1, 2 * p.1.2 + p.2))
    · rintro ⟨⟨r, k⟩, b⟩ hp
      simp only [Finset.mem_product, Finset.mem_filter, hC, Finset.mem_range] at hp
      obtain ⟨⟨h1, h2⟩, hb⟩ := hp
      obtain ⟨r, rfl⟩ : ∃ q, r = q + 1 := ⟨r - 1, by omega⟩
      have e : (2 * k + b) / 2 = k := by omega
      simp only [Finset.mem_filter, Finset.mem_union, hC, hP, Nat.add_sub_cancel, e]
      refine ⟨?_, h1.1⟩
      by_cases ha : Above n T r (2 * k + b)
      · exact .inl ha
      · exact .inr (proofNode_iff.2 (by rw [e]; exact ⟨h1.1, h1, ha⟩))
    · rintro ⟨⟨r, k⟩, b⟩ hp ⟨⟨q, i⟩, c⟩ hq e
      simp only [Finset.mem_product, Finset.mem_filter, Finset.mem_range] at hp hq
      simp only [Prod.mk.injEq] at e ⊢
      omega
    · rintro ⟨r, k⟩ hp
      simp only [Finset.mem_filter, Finset.mem_union, hC, hP] at hp
      obtain ⟨h1, h2⟩ := hp
      refine ⟨((r + 1, k / 2), k % 2), ?_, by simp only [Nat.add_sub_cancel, Prod.mk.injEq, true_and]; omega⟩
      simp only [Finset.mem_product, Finset.mem_filter, hC, Finset.mem_range]
      refine ⟨⟨?_, by omega⟩, by omega⟩
      rcases h1 with h1 | h1
      · exact above_parent h1 h2
      · exact (proofNode_iff.1 h1).2.1
  have h3 : Disjoint C P := by
    rw [Finset.disjoint_left]
    rintro ⟨r, k⟩ h1 h2
    exact (proofNode_iff.1 ((hP r k).1 h2)).2.2 ((hC r k).1 h1)
  have h4 : (P.filter fun p => InForest n (p.1 + 1) (p.2 / 2)) = P := by
    apply Finset.filter_true_of_mem
    rintro ⟨r, k⟩ hp
    exact (proofNode_iff.1 ((hP r k).1 hp)).1
  rw [Finset.card_product, Finset.card_range, Finset.filter_union,
    Finset.card_union_of_disjoint (h3.mono (Finset.filter_subset _ _) (Finset.filter_subset _ _)), h4] at h2
  have h5 := Finset.card_filter_add_card_filter_not (s := C) (fun p => p.1 = 0)
  have h6 := Finset.card_filter_add_card_filter_not (s := C) (fun p : ℕ × ℕ => InForest n (p.1 + 1) (p.2 / 2))
  omega

end Size
end Utreexo
