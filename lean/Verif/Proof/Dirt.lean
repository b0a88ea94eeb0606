import Verif.Proof.Exec
import Verif.Spec.Merkle
import Verif.Model.Accumulator

/-! # Which hashes are right while leaves are being removed

The hashes of all nodes are a function `c : ℕ → ℕ → H` of row and index, `c 0` being the leaves.
-/

namespace Utreexo
open Spec Equiv

variable {H : Type} [HashOps H]

/-- Merkle hash of a node over the leaves `f`. -/
abbrev mt (f : ℕ → H) : ℕ → ℕ → H := merkle HashOps.ph f

theorem mt_zero (f : ℕ → H) (i : ℕ) : mt f 0 i = f i := rfl
theorem mt_succ (f : ℕ → H) (r i : ℕ) : mt f (r + 1) i = HashOps.ph (mt f r (2 * i)) (mt f r (2 * i + 1)) := rfl

/-- Equal leaves give equal hashes. -/
theorem mt_congr {f g : ℕ → H} : ∀ (r i : ℕ), (∀ x, x / 2 ^ r = i → f x = g x) → mt f r i = mt g r i := by
  intro r
  induction r with
  | zero => intro i h; exact h i (by simp)
  | succ r ih =>
    intro i h
    rw [mt_succ, mt_succ, ih, ih]
    · intro x hx; apply h; rw [pow_succ, ← Nat.div_div_eq_div_mul, hx]; omega
    · intro x hx; apply h; rw [pow_succ, ← Nat.div_div_eq_div_mul, hx]; omega

theorem mt_eq_of_rows {f g : ℕ → H} {s : ℕ} : ∀ (k x : ℕ),
    (∀ y, y / 2 ^ k = x → mt f s y = mt g s y) → mt f (s + k) x = mt g (s + k) x := by
  intro k
  induction k with
  | zero => intro x h; exact h x (by simp)
  | succ k ih =>
    intro x h
    rw [← add_assoc, mt_succ, mt_succ, ih, ih]
    · intro y hy; apply h; rw [pow_succ, ← Nat.div_div_eq_div_mul, hy]; omega
    · intro y hy; apply h; rw [pow_succ, ← Nat.div_div_eq_div_mul, hy]; omega

theorem up_succ_two (k : ℕ) (σ : Perm ℕ) (x b : ℕ) (hb : b < 2) :
    up (k + 1) σ (2 * x + b) = 2 * up k σ x + b := by
  rw [show k + 1 = 1 + k by omega, ← up_up, up1_apply, show (2 * x + b) / 2 = x by omega,
    show (2 * x + b) % 2 = b by omega]

/-- Moving whole subtrees of row `r` moves the hashes of the rows below. -/
theorem mt_up (f : ℕ → H) (r : ℕ) (P : Perm ℕ) : ∀ s, s ≤ r → ∀ x,
    mt (f ∘ up r P) s x = mt f s (up (r - s) P x) := by
  intro s
  induction s with
  | zero => intro _ x; rfl
  | succ s ih =>
    intro hs x
    have e : r - s = (r - (s + 1)) + 1 := by omega
    rw [mt_succ, ih (by omega), ih (by omega), mt_succ, e]
    have h1 := up_succ_two (r - (s + 1)) P x 0 (by omega)
    have h2 := up_succ_two (r - (s + 1)) P x 1 (by omega)
    rw [add_zero, add_zero] at h1
    rw [h1, h2]

/-- The hashes after moving subtrees of row `r`. -/
def permCells (r : ℕ) (P : Perm ℕ) (c : ℕ → ℕ → H) : ℕ → ℕ → H := fun s x =>
  if s ≤ r then c s (up (r - s) P x) else c s x

/-- The hashes after recomputing the nodes `D` of row `r + 1`. -/
def rehashCells (r : ℕ) (D : List ℕ) (c : ℕ → ℕ → H) : ℕ → ℕ → H := fun s x =>
  if s = r + 1 ∧ x ∈ D then HashOps.ph (c r (2 * x)) (c r (2 * x + 1)) else c s x

/-- The hashes are right up to the dirt: before the iteration of row `r`, with dirty nodes `Dt` on
row `r + 1`. -/
structure DirtInv (n n' : ℕ) (D : List ℕ) (R r : ℕ) (c : ℕ → ℕ → H) (Dt : List ℕ) : Prop where
  low : ∀ s, s ≤ r → ∀ x, up (r - s) (sg n n' D R r) x < n' / 2 ^ s → c s x = mt (c 0) s x
  high : ∀ s, r < s → ∀ x, x < n / 2 ^ s → c s x = mt (c 0) s x ∨
    (∃ d ∈ Dt, d / 2 ^ (s - (r + 1)) = x) ∨ (∃ d ∈ Dn n D r, d / 2 ^ (s - r) = x)
  bound : ∀ d ∈ Dt, d < n / 2 ^ (r + 1)

theorem div_pow_sub {y s r : ℕ} (h : r < s) : y / 2 ^ (s - r) = y / 2 / 2 ^ (s - (r + 1)) := by
  rw [Nat.div_div_eq_div_mul, ← pow_succ', show s - (r + 1) + 1 = s - r by omega]

theorem root_anc {n r s : ℕ} (h : r < s) : 2 * (n / 2 ^ (r + 1)) / 2 ^ (s - r) = n / 2 ^ s := by
  rw [div_pow_sub h, Nat.mul_div_cancel_left _ (by omega), Nat.div_div_eq_div_mul, ← pow_add,
    show r + 1 + (s - (r + 1)) = s by omega]

theorem dirt_step {n n' : ℕ} {D : List ℕ} {R r : ℕ} {c : ℕ → ℕ → H} {Dt Dt' next : List ℕ}
    (hi : ∀ r, RowInv n n' D r) (hn : n ≤ 2 ^ R) (hr : r < R) (hJ : DirtInv n n' D R r c Dt)
    (hDt : ∀ d, d ∈ Dt' ↔ d ∈ Dt ∨ ∃ o ∈ opsAt n n' D r (sg n n' D R (r + 1)), o.2.2 = false ∧ o.2.1 / 2 = d)
    (hnext : ∀ d, d ∈ next ↔ ∃ e ∈ Dt', e ≠ 2 * (n / 2 ^ (r + 2)) ∧ e / 2 = d) :
    DirtInv n n' D R (r + 1)
      (rehashCells r Dt' (permCells r (rowPerm n n' D r (sg n n' D R (r + 1))).symm c)) next := by
  have hS := sg_sinks hi hn (r := r + 1) hr
  have hok := opsAt_ok (hi r) hS
  have hperm := seqPerm_opsAt n n' D r (sg n n' D R (r + 1))
  have hsg := sg_step n n' D hr
  generalize hρ : sg n n' D R (r + 1) = ρ at *
  generalize hops : opsAt n n' D r ρ = ops at *
  generalize hP : rowPerm n n' D r ρ = P at *
  -- the hashes after the swaps
  set c1 := permCells r P.symm c with hc1
  have hL1 : c1 0 = c 0 ∘ up r P.symm := by
    funext x; simp [hc1, permCells]
  have hDt'b : ∀ d ∈ Dt', d < n / 2 ^ (r + 1) := by
    intro d hd
    rcases (hDt d).1 hd with h | ⟨o, ho, hf, rfl⟩
    · exact hJ.bound d h
    · exact (hok.dst o ho hf).1
  -- rows up to `r`
  have hlow : ∀ s, s ≤ r → ∀ x, up (r + 1 - s) ρ x < n' / 2 ^ s → c1 s x = mt (c1 0) s x := by
    intro s hs x hx
    rw [hL1, mt_up _ _ _ _ hs, hc1]
    simp only [permCells, hs, if_true]
    apply hJ.low s hs
    rw [hsg, up_mul, up_up, show r - s + 1 = r + 1 - s by omega, Perm.mul_apply]
    have e : up (r - s) P (up (r - s) P.symm x) = x := by
      have : (up (r - s) P) ((up (r - s) P).symm x) = x := Equiv.apply_symm_apply _ _
      exact this
    rw [e]; exact hx
  -- slots not touched by the swaps
  have hfix : ∀ y, (∀ o ∈ ops, o.1 ≠ y ∧ o.2.1 ≠ y) → P.symm y = y := by
    intro y hy
    rw [Equiv.symm_apply_eq, ← hperm, seqPerm_fix]
    intro p hp
    obtain ⟨o, ho, rfl⟩ := List.mem_map.1 hp
    exact hy o ho
  have hmt : ∀ k x, (∀ o ∈ ops, o.1 / 2 ^ k ≠ x ∧ o.2.1 / 2 ^ k ≠ x) →
      mt (c1 0) (r + k) x = mt (c 0) (r + k) x := by
    intro k x hx
    apply mt_eq_of_rows
    intro y hy
    rw [hL1, mt_up _ _ _ _ (Nat.le_refl _), Nat.sub_self, up_zero, hfix]
    intro o ho
    exact ⟨fun e => (hx o ho).1 (e ▸ hy), fun e => (hx o ho).2 (e ▸ hy)⟩
  set c2 := rehashCells r Dt' c1 with hc2
  have hc20 : c2 0 = c1 0 := by funext x; simp [hc2, rehashCells]
  have hother : ∀ s x, s ≠ r + 1 → c2 s x = c1 s x := by
    intro s x h; simp [hc2, rehashCells, h]
  have hhigh : ∀ s x, r < s → c1 s x = c s x := by
    intro s x h; simp [hc1, permCells, show ¬ s ≤ r by omega]
  refine ⟨?_, ?_, ?_⟩
  · intro s hs x hx
    rw [hρ] at hx
    rw [hc20]
    rcases Nat.lt_or_ge s (r + 1) with h | h
    · rw [hother s x (by omega)]
      exact hlow s (by omega) x hx
    · have : s = r + 1 := by omega
      subst this
      rw [Nat.sub_self, up_zero] at hx
      have hxn : x < n / 2 ^ (r + 1) := by
        by_contra hc
        rw [hS.fix x (by omega)] at hx
        have := (hi (r + 1)).le
        omega
      have hxD : x ∉ Dn n D (r + 1) := by
        intro h; have := ((hS.mem x).1 h).1; omega
      by_cases hxd : x ∈ Dt'
      · rw [hc2]
        simp only [rehashCells, hxd, and_self, if_true]
        rw [mt_succ]
        have hch : ∀ b, b < 2 → c1 r (2 * x + b) = mt (c1 0) r (2 * x + b) := by
          intro b hb
          apply hlow r (Nat.le_refl _)
          rw [show r + 1 - r = 0 + 1 by omega, up_succ_two _ _ _ _ hb, up_zero]
          have : n' / 2 ^ r / 2 = n' / 2 ^ (r + 1) := by rw [Nat.div_div_eq_div_mul, pow_succ]
          omega
        have h0 := hch 0 (by omega)
        rw [add_zero] at h0
        rw [h0, hch 1 (by omega)]
      · have e1 : c2 (r + 1) x = c (r + 1) x := by
          rw [hc2]; simp only [rehashCells, hxd, and_false, if_false]
          exact hhigh _ _ (by omega)
        have hroot : ∀ y, y = 2 * (n / 2 ^ (r + 1)) → y / 2 ≠ x := by
          intro y hy; omega
        have e2 : mt (c1 0) (r + 1) x = mt (c 0) (r + 1) x := by
          apply hmt
          intro o ho
          rw [pow_one]
          constructor
          · rcases hok.src o ho with h | h
            · exact fun e => hxD (e ▸ h)
            · exact hroot _ h
          · cases hcol : o.2.2 with
            | false => exact fun e => hxd ((hDt x).2 (.inr ⟨o, ho, hcol, e⟩))
            | true =>
              rcases hok.col o ho hcol with h | h
              · exact fun e => hxD (e ▸ h)
              · exact hroot _ h
        rw [e1, e2]
        rcases hJ.high (r + 1) (by omega) x hxn with h | ⟨d, hd, he⟩ | ⟨d, hd, he⟩
        · exact h
        · rw [Nat.sub_self, pow_zero, Nat.div_one] at he
          exact absurd ((hDt x).2 (.inl (he ▸ hd))) hxd
        · rw [show r + 1 - r = 1 by omega, pow_one] at he
          rcases hok.del d hd with h | h | ⟨o, ho, hf, h⟩
          · exact absurd (he ▸ h) hxD
          · exact absurd he (hroot _ h)
          · exact absurd ((hDt x).2 (.inr ⟨o, ho, hf, by rw [h, he]⟩)) hxd
  · intro s hs x hx
    rw [hc20, hother s x (by omega), hhigh s x (by omega)]
    have hrootx : ∀ y, y = 2 * (n / 2 ^ (r + 1)) → y / 2 ^ (s - r) ≠ x := by
      rintro y rfl
      rw [root_anc (by omega)]; omega
    -- a dirty node below `(s, x)` has a dirty parent
    have hpush : ∀ d ∈ Dt', d / 2 ^ (s - (r + 1)) = x → ∃ e ∈ next, e / 2 ^ (s - (r + 1 + 1)) = x := by
      intro d hd he
      refine ⟨d / 2, (hnext _).2 ⟨d, hd, ?_, rfl⟩, ?_⟩
      · rintro rfl
        have := root_anc (n := n) (r := r + 1) (s := s) (by omega)
        rw [this] at he; omega
      · rw [← div_pow_sub (by omega)]; exact he
    have hdead : ∀ y, y / 2 ∈ Dn n D (r + 1) → y / 2 ^ (s - r) = x →
        ∃ d ∈ Dn n D (r + 1), d / 2 ^ (s - (r + 1)) = x := by
      intro y hy he
      exact ⟨_, hy, by rw [← div_pow_sub (by omega)]; exact he⟩
    have hdst : ∀ o ∈ ops, o.2.2 = false → o.2.1 / 2 ^ (s - r) = x →
        ∃ e ∈ next, e / 2 ^ (s - (r + 1 + 1)) = x := by
      intro o ho hf he
      apply hpush (o.2.1 / 2) ((hDt _).2 (.inr ⟨o, ho, hf, rfl⟩))
      rw [← div_pow_sub (by omega)]; exact he
    rcases hJ.high s (by omega) x hx with h | ⟨d, hd, he⟩ | ⟨d, hd, he⟩
    · by_cases htouch : ∃ o ∈ ops, o.1 / 2 ^ (s - r) = x ∨ o.2.1 / 2 ^ (s - r) = x
      · obtain ⟨o, ho, he | he⟩ := htouch
        · rcases hok.src o ho with h1 | h1
          · exact .inr (.inr (hdead _ h1 he))
          · exact absurd he (hrootx _ h1)
        · cases hcol : o.2.2 with
          | false => exact .inr (.inl (hdst o ho hcol he))
          | true =>
            rcases hok.col o ho hcol with h1 | h1
            · exact .inr (.inr (hdead _ h1 he))
            · exact absurd he (hrootx _ h1)
      · left
        rw [h]
        have := hmt (s - r) x (fun o ho => ⟨fun e => htouch ⟨o, ho, .inl e⟩, fun e => htouch ⟨o, ho, .inr e⟩⟩)
        rw [show r + (s - r) = s by omega] at this
        exact this.symm
    · exact .inr (.inl (hpush d ((hDt d).2 (.inl hd)) he))
    · rcases hok.del d hd with h | h | ⟨o, ho, hf, h⟩
      · exact .inr (.inr (hdead d h he))
      · exact absurd he (hrootx _ h)
      · exact .inr (.inl (hdst o ho hf (by rw [h]; exact he)))
  · intro d hd
    obtain ⟨e, he, hne, rfl⟩ := (hnext d).1 hd
    have h1 := hDt'b e he
    have h2 : n / 2 ^ (r + 1) / 2 = n / 2 ^ (r + 2) := by rw [Nat.div_div_eq_div_mul, ← pow_succ]
    rw [show r + 1 + 1 = r + 2 by omega]
    omega

end Utreexo
