import Verif.Proof.PolCount
import Verif.Spec.Refs
import Mathlib.Data.Finset.Card
import Mathlib.Data.Finset.Union
import Mathlib.Algebra.BigOperators.Group.Finset.Basic
import Mathlib.Algebra.Order.BigOperators.Group.Finset

/-! # The objects of a pollard that are reachable -/

set_option linter.unusedSectionVars false

namespace Utreexo
open Spec Equiv

variable {H : Type} [DecidableEq H] [HashOps H]

namespace Pol

/-- The nodes of the tree with top `z` in row `q`. -/
def treeSet : ℕ → ℕ → Finset (ℕ × ℕ)
  | 0, z => {(0, z)}
  | q + 1, z => insert (q + 1, z) (treeSet q (2 * z) ∪ treeSet q (2 * z + 1))

theorem mem_treeSet : ∀ q z r x, (r, x) ∈ treeSet q z ↔ r ≤ q ∧ x / 2 ^ (q - r) = z := by
  intro q
  induction q with
  | zero =>
    intro z r x
    simp only [treeSet, Finset.mem_singleton, Prod.mk.injEq, Nat.le_zero]
    constructor
    · rintro ⟨rfl, rfl⟩; simp
    · rintro ⟨rfl, h⟩; simpa using h
  | succ q ih =>
    intro z r x
    simp only [treeSet, Finset.mem_insert, Finset.mem_union, Prod.mk.injEq, ih]
    rcases Nat.lt_or_ge q r with h | h
    · constructor
      · rintro (⟨rfl, rfl⟩ | ⟨h', -⟩ | ⟨h', -⟩)
        · simp
        · omega
        · omega
      · rintro ⟨h1, h2⟩
        have : r = q + 1 := by omega
        subst this
        left
        simpa using h2
    · have e : x / 2 ^ (q + 1 - r) = x / 2 ^ (q - r) / 2 := by
        rw [show q + 1 - r = q - r + 1 by omega, pow_succ, Nat.div_div_eq_div_mul]
      rw [e]
      constructor
      · rintro (⟨rfl, rfl⟩ | ⟨_, h'⟩ | ⟨_, h'⟩)
        · omega
        · exact ⟨by omega, by omega⟩
        · exact ⟨by omega, by omega⟩
      · rintro ⟨-, h2⟩
        right
        have : x / 2 ^ (q - r) = 2 * z ∨ x / 2 ^ (q - r) = 2 * z + 1 := by omega
        exact this.imp (fun t => ⟨h, t⟩) (fun t => ⟨h, t⟩)

theorem card_treeSet (A : Addr) : ∀ q z, ((treeSet q z).filter fun e => (A e.1 e.2).isSome).card =
    (if (A q z).isSome then 1 else 0) + objsIn A q z := by
  intro q
  induction q with
  | zero =>
    intro z
    rw [treeSet, objsIn, Finset.filter_singleton]
    split <;> simp
  | succ q ih =>
    intro z
    have hd : Disjoint ((treeSet q (2 * z)).filter fun e => (A e.1 e.2).isSome) ((treeSet q (2 * z + 1)).filter fun e => (A e.1 e.2).isSome) := by
      rw [Finset.disjoint_left]
      rintro ⟨r, x⟩ h1 h2
      rw [Finset.mem_filter, mem_treeSet] at h1 h2
      omega
    have hn : (q + 1, z) ∉ ((treeSet q (2 * z)).filter fun e => (A e.1 e.2).isSome) ∪ ((treeSet q (2 * z + 1)).filter fun e => (A e.1 e.2).isSome) := by
      rw [Finset.mem_union, Finset.mem_filter, Finset.mem_filter, mem_treeSet, mem_treeSet]
      omega
    rw [treeSet, Finset.filter_insert, Finset.filter_union, objsIn]
    split
    · rw [Finset.card_insert_of_notMem hn, Finset.card_union_of_disjoint hd, ih, ih]; omega
    · rw [Finset.card_union_of_disjoint hd, ih, ih]; omega

/-- The nodes of the forest. -/
def forestSet (n : ℕ) : Finset (ℕ × ℕ) := (rootCoords n).toFinset.biUnion fun e => treeSet e.1 e.2

theorem rootCoords_nodup (n : ℕ) : (rootCoords n).Nodup := by
  unfold rootCoords
  refine List.Nodup.map ?_ ((treeRows_sorted n 64).imp (fun h => by omega))
  intro a b h
  simp only [Prod.mk.injEq] at h
  exact h.1

theorem mem_forestSet {n : ℕ} (hn : n ≤ 2 ^ 62) {r x : ℕ} : (r, x) ∈ forestSet n ↔ x < n / 2 ^ r := by
  unfold forestSet
  simp only [Finset.mem_biUnion, List.mem_toFinset]
  constructor
  · rintro ⟨⟨t, i⟩, h1, h2⟩
    rw [mem_treeSet] at h2
    have h3 := (rootCoords_in h1).1
    obtain ⟨h2, h4⟩ := h2
    simp only at h3 h2 h4
    rw [← h4, show n / 2 ^ t = n / 2 ^ r / 2 ^ (t - r) by rw [Nat.div_div_eq_div_mul, ← pow_add, show r + (t - r) = t by omega]] at h3
    exact lt_of_not_ge fun hc => absurd (Nat.div_le_div_right (c := 2 ^ (t - r)) hc) (by omega)
  · suffices ∀ k r x, r + k = 64 → x < n / 2 ^ r → ∃ a ∈ rootCoords n, (r, x) ∈ treeSet a.1 a.2 by
      intro h
      have hr : r ≤ 64 := by
        by_contra hc
        rw [Nat.div_eq_of_lt (lt_of_le_of_lt hn (Nat.pow_lt_pow_right (by omega) (by omega)))] at h
        omega
      exact this (64 - r) r x (by omega) h
    intro k
    induction k with
    | zero =>
      intro r x hr h
      rw [Nat.div_eq_of_lt (lt_of_le_of_lt hn (Nat.pow_lt_pow_right (by omega) (by omega)))] at h
      omega
    | succ k ih =>
      intro r x hr h
      by_cases hrt : rtOf n r x = true
      · exact ⟨(r, x), rt_mem hrt hn, by rw [mem_treeSet]; simp⟩
      · obtain ⟨a, h1, h2⟩ := ih (r + 1) (x / 2) (by omega) (sib_in h (by simpa using hrt))
        refine ⟨a, h1, ?_⟩
        rw [mem_treeSet] at h2 ⊢
        refine ⟨by omega, ?_⟩
        rw [← h2.2, Nat.div_div_eq_div_mul, ← pow_succ', show a.1 - (r + 1) + 1 = a.1 - r by omega]

theorem card_forestSet {n : ℕ} (A : Addr) (hr : ∀ r i, rtOf n r i = true → (A r i).isSome) :
    ((forestSet n).filter fun e => (A e.1 e.2).isSome).card = ((rootCoords n).map fun e => 1 + objsIn A e.1 e.2).sum := by
  unfold forestSet
  rw [Finset.filter_biUnion, Finset.card_biUnion, ← List.sum_toFinset _ (rootCoords_nodup n)]
  · apply Finset.sum_congr rfl
    intro e he
    rw [card_treeSet, if_pos (hr _ _ (mem_rootCoords (List.mem_toFinset.1 he)))]
  · rintro ⟨t, i⟩ h1 ⟨t', i'⟩ h2 hne
    rw [Finset.mem_coe, List.mem_toFinset] at h1 h2
    show Disjoint _ _
    rw [Finset.disjoint_left]
    rintro ⟨r, x⟩ g1 g2
    rw [Finset.mem_filter, mem_treeSet] at g1 g2
    obtain ⟨⟨g1, e1⟩, -⟩ := g1
    obtain ⟨⟨g2, e2⟩, -⟩ := g2
    simp only at g1 g2 e1 e2
    have r1 := mem_rootCoords h1
    have r2 := mem_rootCoords h2
    simp only at r1 r2
    have key : ∀ t i t' i', rtOf n t i = true → rtOf n t' i' = true → t < t' → r ≤ t → x / 2 ^ (t - r) = i → x / 2 ^ (t' - r) = i' → False := by
      intro t i t' i' r1 r2 hlt g1 e1 e2
      have h3 := rtOf_in r2
      obtain ⟨-, h4⟩ := rtOf_true.1 r1
      rw [rootIdx_le] at h4
      have := root_anc (n := n) hlt
      rw [← h4, ← e1, Nat.div_div_eq_div_mul, ← pow_add, show t - r + (t' - t) = t' - r by omega, e2] at this
      omega
    rcases Nat.lt_trichotomy t t' with h | h | h
    · exact key _ _ _ _ r1 r2 h g1 e1 e2
    · subst h
      exact hne (by rw [← e1, ← e2])
    · exact key _ _ _ _ r2 r1 h g2 e2 e1

/-! ## References -/

theorem ref_iff {p : Pollard H} {i j : ℕ} : Ref p i j ↔ ∃ b, b < 2 ∧ nz p.ext (some i) b = some j := by
  constructor
  · rintro ⟨x, h1, h2 | h2⟩
    · exact ⟨0, by omega, by rw [nz_some h1]; exact h2⟩
    · exact ⟨1, by omega, by rw [nz_some h1]; exact h2⟩
  · rintro ⟨b, h1, h2⟩
    unfold nz at h2
    rw [Option.bind_some] at h2
    cases hx : p.ext[i]? with
    | none => rw [hx] at h2; simp at h2
    | some x =>
      rw [hx, Option.bind_some] at h2
      refine ⟨x, hx, ?_⟩
      unfold INode.niece at h2
      split at h2
      · exact .inl h2
      · exact .inr h2

theorem PH.handle {s : Pollard H} {n : ℕ} {A : Addr} {c : ℕ → ℕ → H} (h : PH s n A c) (hn : n ≤ 2 ^ 62) {i : ℕ} :
    Handle s i ↔ i = 0 ∨ ∃ r x, rtOf n r x = true ∧ A r x = some i := by
  unfold Handle
  refine or_congr Iff.rfl ⟨?_, ?_⟩
  · rintro ⟨r, hr, e, he, h1⟩
    rw [h.roots.up r hr, List.mem_singleton] at he
    subst he
    have m1 : r.e.node ∈ (rootCoords n).map fun c => A c.1 c.2 := by
      rw [← h.roots.node]; exact List.mem_map_of_mem hr
    have m2 : r.e.sib ∈ (rootCoords n).map fun c => A c.1 c.2 := by
      rw [← h.roots.sib]; exact List.mem_map_of_mem hr
    rcases h1 with h1 | h1
    · rw [h1] at m1
      obtain ⟨e, he, h2⟩ := List.mem_map.1 m1
      exact ⟨_, _, mem_rootCoords he, h2⟩
    · rw [h1] at m2
      obtain ⟨e, he, h2⟩ := List.mem_map.1 m2
      exact ⟨_, _, mem_rootCoords he, h2⟩
  · rintro ⟨r, x, h1, h2⟩
    have : A r x ∈ s.roots.map (fun r => r.e.node) := by
      rw [h.roots.node]
      exact List.mem_map.2 ⟨(r, x), rt_mem h1 hn, rfl⟩
    obtain ⟨y, hy, h3⟩ := List.mem_map.1 this
    exact ⟨y, hy, y.e, by simp, .inl (by rw [h3, h2])⟩

/-- The addressed objects refer to addressed objects and to `m_remember`. -/
theorem Shape.ref {s : Pollard H} {n : ℕ} {A : Addr} (h : Shape s.ext (rtOf n) A) (hout : ∀ r y, ¬ y < n / 2 ^ r → A r y = none)
    {r x i j : ℕ} (hi : A r x = some i) (hr : Ref s i j) : j = 0 ∨ ∃ q y, A q y = some j := by
  obtain ⟨b, hb, h1⟩ := ref_iff.1 hr
  cases r with
  | zero =>
    left
    have := h.leaf x
    rw [hi] at this
    rcases Nat.lt_or_ge b 1 with hb' | hb'
    · have : b = 0 := by omega
      subst this
      rcases this.2 with e | e <;> rw [e] at h1 <;> simp at h1
      exact h1.symm
    · have : b = 1 := by omega
      subst this
      rw [this.1] at h1; simp at h1
  | succ q =>
    right
    have hx : x < n / 2 ^ (q + 1) := by
      by_contra hc
      rw [hout _ _ hc] at hi; simp at hi
    by_cases hrt : rtOf n (q + 1) x = true
    · refine ⟨q, 2 * x + b, ?_⟩
      rw [h.kids q _ (kid_rt hx (by omega)), show (2 * x + b) / 2 = x by omega, show (2 * x + b) % 2 = b by omega,
        holder_root hrt, hi, h1]
    · have hp := sib_in hx (by simpa using hrt)
      have hs : x ^^^ 1 < n / 2 ^ (q + 1) := kid_in hp (sb_div x)
      refine ⟨q, 2 * (x ^^^ 1) + b, ?_⟩
      rw [h.kids q _ (kid_rt hs (by omega)), show (2 * (x ^^^ 1) + b) / 2 = x ^^^ 1 by omega,
        show (2 * (x ^^^ 1) + b) % 2 = b by omega, kid_holder hp (sb_div x), sb_sb, hi, h1]

theorem Inv.live {s : Pollard H} {n : ℕ} {f : ℕ → H} {A : Addr} (h : Inv s n f A) (hn : n ≤ 2 ^ 62) {i : ℕ} :
    Live s i ↔ i = 0 ∨ ∃ r x, A r x = some i := by
  constructor
  · intro hl
    induction hl with
    | handle h1 =>
      rcases (h.ph.handle hn).1 h1 with h1 | ⟨r, x, -, h2⟩
      · exact .inl h1
      · exact .inr ⟨r, x, h2⟩
    | @ref i j h1 h2 ih =>
      rcases ih with rfl | ⟨r, x, h3⟩
      · exfalso
        obtain ⟨rk, r0, -, r2⟩ := h.ph.shape.rank
        obtain ⟨b, hb, h4⟩ := ref_iff.1 h2
        have := (r2 0 b j hb h4).2
        omega
      · exact h.ph.shape.ref h.out h3 h2
  · rintro (rfl | ⟨r, x, h1⟩)
    · exact .handle (.inl rfl)
    · suffices ∀ k r x i, r + k = 64 → A r x = some i → Live s i by
        have hr : r ≤ 64 := by
          by_contra hc
          rw [h.out r x] at h1
          · simp at h1
          · rw [Nat.div_eq_of_lt (lt_of_le_of_lt hn (Nat.pow_lt_pow_right (by omega) (by omega)))]
            omega
        exact this (64 - r) r x i (by omega) h1
      intro k
      induction k with
      | zero =>
        intro r x i hr h1
        rw [h.out r x] at h1
        · simp at h1
        · rw [Nat.div_eq_of_lt (lt_of_le_of_lt hn (Nat.pow_lt_pow_right (by omega) (by omega)))]
          omega
      | succ k ih =>
        intro r x i hr h1
        by_cases hrt : rtOf n r x = true
        · exact .handle ((h.ph.handle hn).2 (.inr ⟨r, x, hrt, h1⟩))
        · simp only [Bool.not_eq_true] at hrt
          obtain ⟨q, hq⟩ := h.ph.shape.holder_of h1 hrt
          obtain ⟨y, hy⟩ := holder_addr hq
          refine .ref (ih (r + 1) y q (by omega) hy) (ref_iff.2 ⟨x % 2, by omega, ?_⟩)
          rw [← hq, ← h.ph.shape.kids r x hrt, h1]

end Pol
end Utreexo
