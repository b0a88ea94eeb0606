import Verif.Proof.Plan

/-!
# Where the swaps of the bottom row alone take a leaf
-/

namespace Utreexo
open Spec Equiv

theorem idxPairs_mem : ∀ (k : ℕ) (ws : List ℕ), ws.length ≤ k → ws.Pairwise (· < ·) → ∀ p ∈ idxPairs ws,
    p.1 ^^^ 1 ∈ ws ∧ p.2 ∈ ws ∧ p.2 < p.1 ^^^ 1 := by
  intro k
  induction k with
  | zero =>
    intro ws h _ p hp
    have : ws = [] := List.length_eq_zero_iff.1 (by omega)
    subst this; simp [idxPairs] at hp
  | succ k ih =>
    intro ws h hs p hp
    match ws, h, hs, hp with
    | [], _, _, hp => simp [idxPairs] at hp
    | [a], _, _, hp => simp [idxPairs] at hp
    | a :: b :: rest, h, hs, hp =>
      rw [idxPairs] at hp
      obtain ⟨h1, h2⟩ := List.pairwise_cons.1 hs
      rcases List.mem_cons.1 hp with rfl | hp
      · simp only [sb_sb]
        exact ⟨by simp, by simp, h1 b (by simp)⟩
      · obtain ⟨g1, g2, g3⟩ := ih rest (by simp at h; omega) (List.pairwise_cons.1 h2).2 p hp
        exact ⟨by simp [g1], by simp [g2], g3⟩

/-- A swap of a row fills the place of a deleted node whose sibling is not deleted, with a node from further right. -/
theorem rowS_order {m : ℕ} {b : Bool} {D : List ℕ} (hs : D.Pairwise (· < ·)) :
    ∀ p ∈ rowS m b D, p.2 / 2 < p.1 / 2 ∧ p.2 ^^^ 1 ∉ D := by
  have hsT : (rowTs m D).Pairwise (· < ·) := hs.filter _
  have N := nextSpec _ (rowTs m D) 0 (Nat.le_refl _) hsT
  have hT : ∀ i, i ∈ rowTs m D ↔ i ∈ D ∧ i < 2 * m := by intro i; simp [rowTs]
  have hw : ∀ w ∈ (idxNext (rowTs m D) 0).2, w < 2 * m ∧ w ^^^ 1 ∉ D := by
    intro w hw
    obtain ⟨h1, h2⟩ := (N.mem_ws w).1 hw
    have h3 := ((hT w).1 h1).2
    exact ⟨h3, fun hc => h2 ((hT _).2 ⟨hc, sb_lt.2 h3⟩)⟩
  intro p hp
  unfold rowS at hp
  simp only at hp
  rcases List.mem_append.1 hp with hp | hp
  · obtain ⟨h1, h2, h3⟩ := idxPairs_mem _ _ (Nat.le_refl _) N.sorted_ws p hp
    refine ⟨?_, (hw _ h2).2⟩
    have h4 : p.2 / 2 ≠ p.1 / 2 := by
      intro e
      rw [← sb_div p.1] at e
      rcases half_eq.1 e with e | e
      · omega
      · have := ((N.mem_ws _).1 h2).2
        rw [e, sb_sb] at this
        exact this ((N.mem_ws _).1 h1).1
    have h5 : (p.1 ^^^ 1) / 2 = p.1 / 2 := sb_div _
    omega
  · split at hp
    · obtain ⟨w, hw1, rfl⟩ := List.mem_map.1 hp
      have hm : w ∈ (idxNext (rowTs m D) 0).2 := by
        unfold oddLast at hw1
        split at hw1
        · simp at hw1
        · rename_i hl
          simp only [List.mem_singleton] at hw1
          rw [hw1]
          generalize (idxNext (rowTs m D) 0).2 = ws at *
          cases ws with
          | nil => simp at hl
          | cons a l =>
            rw [List.getLastD_cons, List.getLastD_eq_getLast?]
            cases hl : l.getLast? with
            | none => simp
            | some z => exact List.mem_cons_of_mem _ (List.mem_of_getLast? hl)
      obtain ⟨h1, h2⟩ := hw w hm
      exact ⟨by simp only; omega, h2⟩
    · simp at hp

/-- Where the bottom row's swaps take leaf `x` that ends up beside leaf `z`: they stay together; or the one further right is put
beside the other one, in the place of a deleted leaf. -/
def firstStop (x z : ℕ) : ℕ := if z = x ^^^ 1 ∨ x < z then x else z ^^^ 1

theorem rowPerm_first {n n' : ℕ} {D : List ℕ} {ρ : Perm ℕ} (hi : RowInv n n' D 0) (hS : Sinks n n' D 1 ρ) {x z : ℕ}
    (hx : x ∉ D) (hz : z ∉ D) (hxz : rowPerm n n' D 0 ρ x ^^^ 1 = rowPerm n n' D 0 ρ z)
    (cx : rowPerm n n' D 0 ρ x ≠ colDst n' 0 ρ) (cz : rowPerm n n' D 0 ρ z ≠ colDst n' 0 ρ) :
    rowPerm n n' D 0 ρ x = firstStop x z ∧
      (rowPerm n n' D 0 ρ x / 2 ∈ (Sn n D 0).map (fun p => p.2 / 2) ↔ z ≠ x ^^^ 1) := by
  have hok := hi.ok
  have hD0 : Dn n D 0 = D := rfl
  have hord : ∀ p ∈ Sn n D 0, p.2 / 2 < p.1 / 2 ∧ p.2 ^^^ 1 ∉ D := rowS_order hi.sorted
  -- neither is touched by the collapse
  have key : ∀ y, y ∉ D → rowPerm n n' D 0 ρ y ≠ colDst n' 0 ρ →
      rowPerm n n' D 0 ρ y = seqPerm (Sn n D 0) y ∧
      ¬ Zone (n / 2 ^ (0 + 1)) (n.testBit 0) (Dn n D (0 + 1)) (seqPerm (Sn n D 0) y) := by
    intro y hy hc
    have hd := hok.dead y
    rw [hD0] at hd
    have hy' : ¬ (Zone (n / 2 ^ (0 + 1)) (n.testBit 0) (Dn n D (0 + 1)) (seqPerm (Sn n D 0) y) ∧
        Xn n D 0 ≠ some (seqPerm (Sn n D 0) y)) := fun h => hy (hd.2 h)
    unfold rowPerm at hc ⊢
    rw [Perm.mul_apply] at hc ⊢
    generalize seqPerm (Sn n D 0) y = w at *
    cases hX : Xn n D 0 with
    | none =>
      rw [hX] at hy'
      exact ⟨rfl, fun h => hy' ⟨h, by simp⟩⟩
    | some x' =>
      rw [hX] at hy' hc
      simp only at hc ⊢
      have hzone := colDst_zone hi hS hX
      have h1 : w ≠ x' := by
        rintro rfl
        rw [swap_apply_left] at hc
        exact hc rfl
      have h2 : ¬ Zone (n / 2 ^ (0 + 1)) (n.testBit 0) (Dn n D (0 + 1)) w :=
        fun h => hy' ⟨h, fun e => h1 (Option.some.inj e).symm⟩
      have h3 : w ≠ colDst n' 0 ρ := by
        intro e
        apply h2
        rw [e]; exact hzone
      exact ⟨swap_apply_of_ne_of_ne h1 h3, h2⟩
  obtain ⟨ex, nx⟩ := key x hx cx
  obtain ⟨ez, nz⟩ := key z hz cz
  rw [ex] at hxz ⊢
  rw [ez] at hxz
  -- a leaf that stays is outside the zone, a leaf that moves leaves the zone
  have move : ∀ y w, y ∉ D → (y, w) ∈ Sn n D 0 → ∀ v, v ∉ D → seqPerm (Sn n D 0) v = w ^^^ 1 → v = w ^^^ 1 := by
    intro y w _ hw v hv e
    rcases mem_or_fix (Sn n D 0) v with ⟨w', hw'⟩ | ⟨s, hs⟩ | hf
    · rw [seqPerm_fst hok.disj hw'] at e
      exact absurd ((hok.swaps _ _ hw').1) (by rw [e]; exact (hord _ hw).2)
    · exact absurd (hok.swaps _ _ hs).1 hv
    · rw [seqPerm_fix hf] at e; exact e
  rcases mem_or_fix (Sn n D 0) x with ⟨w, hw⟩ | ⟨s, hs⟩ | hf
  · have e1 := seqPerm_fst hok.disj hw
    rw [e1] at hxz ⊢
    have e2 := move x w hx hw z hz hxz.symm
    have ho := (hord _ hw).1
    simp only at ho
    have hne : z ≠ x ^^^ 1 := by
      intro e
      rw [e2, sb_inj] at e
      rw [e] at ho; omega
    have hlt : ¬ x < z := by
      have := sb_div w
      intro h
      rw [e2] at h
      omega
    refine ⟨?_, fun _ => hne, fun _ => List.mem_map.2 ⟨_, hw, rfl⟩⟩
    unfold firstStop
    rw [if_neg (by rintro (h | h); exacts [hne h, hlt h]), e2, sb_sb]
  · exact absurd (hok.swaps _ _ hs).1 hx
  · have e1 := seqPerm_fix hf
    rw [e1] at hxz ⊢
    rcases mem_or_fix (Sn n D 0) z with ⟨w, hw⟩ | ⟨s, hs⟩ | hg
    · have e2 := seqPerm_fst hok.disj hw
      rw [e2] at hxz
      have ho := (hord _ hw).1
      simp only at ho
      have h1 : x / 2 = w / 2 := by rw [← hxz, sb_div]
      have hne : z ≠ x ^^^ 1 := by
        intro e
        rw [e, sb_div] at ho; omega
      refine ⟨?_, fun _ => hne, fun _ => List.mem_map.2 ⟨_, hw, h1.symm⟩⟩
      unfold firstStop
      rw [if_pos (.inr (by omega))]
    · exact absurd (hok.swaps _ _ hs).1 hz
    · rw [seqPerm_fix hg] at hxz
      refine ⟨by unfold firstStop; rw [if_pos (.inl hxz.symm)], fun h => ?_, fun h => absurd hxz.symm h⟩
      obtain ⟨p, hp, e⟩ := List.mem_map.1 h
      rcases half_eq.1 e with e | e
      · exact absurd e (hf p hp).2
      · rw [hxz] at e
        exact absurd e (hg p hp).2

end Utreexo
