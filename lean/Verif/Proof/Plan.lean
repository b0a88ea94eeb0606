import Verif.Proof.RowPlan

/-!
# The permutation computed by the remove transformation, in index coordinates
-/

namespace Utreexo
open Spec Equiv

/-- Deleted nodes of the next row. -/
def nextD (n r : Nat) (D : List Nat) : List Nat :=
  St.sortU64 (rowNext (n / 2 ^ (r + 1)) (n.testBit r) D)

/-- Deleted nodes of each row. -/
def Dn (n : Nat) (D : List Nat) : Nat → List Nat
  | 0 => D
  | r + 1 => nextD n r (Dn n D r)

/-- Swaps of row `r`. -/
def Sn (n : Nat) (D : List Nat) (r : Nat) : List (Nat × Nat) :=
  rowS (n / 2 ^ (r + 1)) (n.testBit r) (Dn n D r)

/-- Collapse source of row `r`. -/
def Xn (n : Nat) (D : List Nat) (r : Nat) : Option Nat :=
  rowX (n / 2 ^ (r + 1)) (n.testBit r) (Dn n D r)

/-- Destination of the collapse of row `r` before the rows above (permutation `ρ`) are executed. -/
def colDst (n' r : Nat) (ρ : Perm ℕ) : ℕ := (up 1 ρ).symm (rootIdx n' r)

/-- Permutation of row `r` given the permutation `ρ` of the rows above. -/
def rowPerm (n n' : Nat) (D : List Nat) (r : Nat) (ρ : Perm ℕ) : Perm ℕ :=
  (match Xn n D r with
    | none => 1
    | some x => swap x (colDst n' r ρ)) * seqPerm (Sn n D r)

/-- Permutation of `k` rows from row `r` on. -/
def sigma (n n' : Nat) (D : List Nat) : Nat → Nat → Perm ℕ
  | 0, _ => 1
  | k + 1, r => up 1 (sigma n n' D k (r + 1)) * rowPerm n n' D r (sigma n n' D k (r + 1))

/-- Operations of row `r`: source, destination, is it a collapse. -/
def opsAt (n n' : Nat) (D : List Nat) (r : Nat) (ρ : Perm ℕ) : List (ℕ × ℕ × Bool) :=
  (Sn n D r).map (fun p => (p.1, p.2, false)) ++
    (match Xn n D r with
      | none => []
      | some x => if x = colDst n' r ρ then [] else [(x, colDst n' r ρ, true)])

theorem seqPerm_opsAt (n n' : Nat) (D : List Nat) (r : Nat) (ρ : Perm ℕ) :
    seqPerm ((opsAt n n' D r ρ).map fun o => (o.1, o.2.1)) = rowPerm n n' D r ρ := by
  unfold opsAt rowPerm
  rw [List.map_append, seqPerm_append, List.map_map]
  congr 1
  · cases Xn n D r with
    | none => rfl
    | some x =>
      simp only
      split
      · rename_i h; rw [← h, swap_self]; rfl
      · simp [seqPerm]
  · congr 1
    conv_rhs => rw [← List.map_id (Sn n D r)]
    apply List.map_congr_left; intro p _; rfl

/-! ## Counting -/

theorem div_bit (n r : Nat) : n / 2 ^ r = 2 * (n / 2 ^ (r + 1)) + (n.testBit r).toNat := by
  rw [testBit_div (n := n) (t := r)]; cases n.testBit r <;> rfl

/-- The deletions of a row are sane. -/
structure RowInv (n n' : Nat) (D : List Nat) (r : Nat) : Prop where
  sorted : (Dn n D r).Pairwise (· < ·)
  bound : ∀ i ∈ Dn n D r, i < n / 2 ^ r
  count : n / 2 ^ r = n' / 2 ^ r + (Dn n D r).length

theorem RowInv.ok {n n' : Nat} {D : List Nat} {r : Nat} (h : RowInv n n' D r) :
    RowOK (n / 2 ^ (r + 1)) (n.testBit r) (Dn n D r) (Dn n D (r + 1)) (Sn n D r) (Xn n D r) :=
  rowOK _ _ _ h.sorted (by rw [← div_bit]; exact h.bound)

theorem RowInv.next_counts {n n' : Nat} {D : List Nat} {r : Nat} (h : RowInv n n' D r) :
    n / 2 ^ (r + 1) = n' / 2 ^ (r + 1) + (Dn n D (r + 1)).length ∧
    n' / 2 ^ r = 2 * (n' / 2 ^ (r + 1)) + (Xn n D r).toList.length := by
  have hc := h.ok.card
  have h1 := h.count
  have h2 := div_bit n r
  have h3 := div_bit n' r
  have h4 : (Xn n D r).toList.length ≤ 1 := by cases Xn n D r <;> simp
  have h5 : (n'.testBit r).toNat ≤ 1 := by cases n'.testBit r <;> simp
  omega

theorem RowInv.next {n n' : Nat} {D : List Nat} {r : Nat} (h : RowInv n n' D r) : RowInv n n' D (r + 1) :=
  ⟨h.ok.sortedD', h.ok.boundD', h.next_counts.1⟩

theorem rowInv {n n' : Nat} {D : List Nat} (hs : D.Pairwise (· < ·)) (hb : ∀ i ∈ D, i < n)
    (hn : n = n' + D.length) : ∀ r, RowInv n n' D r := by
  intro r
  induction r with
  | zero => exact ⟨hs, by simpa [Dn] using hb, by simpa [Dn] using hn⟩
  | succ r ih => exact ih.next

/-! ## The permutation moves the deleted nodes to the end -/

/-- `ρ` moves exactly the deleted nodes of row `r` behind the survivors. -/
structure Sinks (n n' : Nat) (D : List Nat) (r : Nat) (ρ : Perm ℕ) : Prop where
  mem : ∀ i, i ∈ Dn n D r ↔ n' / 2 ^ r ≤ ρ i ∧ ρ i < n / 2 ^ r
  fix : ∀ i, n / 2 ^ r ≤ i → ρ i = i

theorem RowOK.disj {m : Nat} {b : Bool} {D D' : List Nat} {S : List (Nat × Nat)} {X : Option Nat}
    (h : RowOK m b D D' S X) : Disj S :=
  ⟨h.fst, h.snd, fun p hp q hq e =>
    (h.swaps p.1 p.2 hp).2.1 (e ▸ (h.swaps q.1 q.2 hq).1)⟩

/-- Slots below a deleted node of the next row, or the root. -/
def Zone (m : Nat) (b : Bool) (D' : List Nat) (x : Nat) : Prop := x / 2 ∈ D' ∨ (b = true ∧ x = 2 * m)

theorem RowOK.dead {m : Nat} {b : Bool} {D D' : List Nat} {S : List (Nat × Nat)} {X : Option Nat}
    (h : RowOK m b D D' S X) (i : Nat) :
    i ∈ D ↔ Zone m b D' (seqPerm S i) ∧ X ≠ some (seqPerm S i) := by
  rcases mem_or_fix S i with ⟨w, hw⟩ | ⟨s, hs⟩ | hf
  · rw [seqPerm_fst h.disj hw]
    obtain ⟨h1, h2, h3, h4⟩ := h.swaps i w hw
    exact ⟨fun h => absurd h h2, fun h => absurd h.1 h4⟩
  · rw [seqPerm_snd h.disj hs]
    obtain ⟨h1, h2, h3, h4⟩ := h.swaps s i hs
    refine ⟨fun _ => ⟨h3, fun hX => ?_⟩, fun _ => h1⟩
    exact (h.col s hX).2.2.1 _ hs rfl
  · rw [seqPerm_fix hf]; exact h.rest i hf

theorem RowOK.zone_lt {m : Nat} {b : Bool} {D D' : List Nat} {S : List (Nat × Nat)} {X : Option Nat}
    (h : RowOK m b D D' S X) {x : Nat} (hz : Zone m b D' x) : x < 2 * m + b.toNat := by
  rcases hz with h1 | ⟨h1, h2⟩
  · have := h.boundD' _ h1; omega
  · subst h2; simp [h1]

theorem RowOK.slot_lt {m : Nat} {b : Bool} {D D' : List Nat} {S : List (Nat × Nat)} {X : Option Nat}
    (h : RowOK m b D D' S X) {p : Nat × Nat} (hp : p ∈ S) :
    p.1 < 2 * m + b.toNat ∧ p.2 < 2 * m + b.toNat := by
  obtain ⟨h1, h2, h3, h4⟩ := h.swaps p.1 p.2 hp
  exact ⟨h.zone_lt h3, h.boundD _ h1⟩

theorem up1_apply (ρ : Perm ℕ) (x : ℕ) : up 1 ρ x = 2 * ρ (x / 2) + x % 2 := by
  rw [up_apply]; simp; ring

theorem zone_iff {n n' : Nat} {D : List Nat} {r : Nat} {ρ : Perm ℕ} (hs : Sinks n n' D (r + 1) ρ)
    (hle : n' / 2 ^ (r + 1) ≤ n / 2 ^ (r + 1)) (x : ℕ) : Zone (n / 2 ^ (r + 1)) (n.testBit r) (Dn n D (r + 1)) x ↔
      2 * (n' / 2 ^ (r + 1)) ≤ up 1 ρ x ∧ up 1 ρ x < n / 2 ^ r := by
  rw [up1_apply, div_bit n r]
  unfold Zone
  rw [hs.mem (x / 2)]
  constructor
  · rintro (h | ⟨h1, h2⟩)
    · omega
    · subst h2
      rw [show 2 * (n / 2 ^ (r + 1)) / 2 = n / 2 ^ (r + 1) by omega, hs.fix _ (Nat.le_refl _)]
      simp [h1]; omega
  · rintro ⟨h1, h2⟩
    by_cases hb : n.testBit r = true
    · by_cases hx : ρ (x / 2) < n / 2 ^ (r + 1)
      · left; omega
      · right
        simp only [hb, Bool.toNat_true] at h2
        have h3 : ρ (x / 2) = n / 2 ^ (r + 1) := by omega
        have h4 : x / 2 = n / 2 ^ (r + 1) := by
          apply ρ.injective; rw [h3, hs.fix _ (Nat.le_refl _)]
        exact ⟨hb, by omega⟩
    · left
      simp only [Bool.not_eq_true] at hb
      rw [hb] at h2; simp at h2; omega


theorem RowInv.le {n n' : Nat} {D : List Nat} {r : Nat} (h : RowInv n n' D r) : n' / 2 ^ r ≤ n / 2 ^ r := by
  have := h.count; omega

theorem rootIdx_le (n' r : Nat) : rootIdx n' r = 2 * (n' / 2 ^ (r + 1)) := by
  unfold rootIdx; ring

theorem up1_fix {n n' : Nat} {D : List Nat} {r : Nat} {ρ : Perm ℕ} (hs : Sinks n n' D (r + 1) ρ)
    {x : ℕ} (hx : n / 2 ^ r ≤ x) : up 1 ρ x = x := by
  apply up_fix
  apply hs.fix
  have := div_bit n r
  simp; omega

theorem colDst_spec (n' r : Nat) (ρ : Perm ℕ) : up 1 ρ (colDst n' r ρ) = 2 * (n' / 2 ^ (r + 1)) := by
  rw [colDst, Equiv.apply_symm_apply, rootIdx_le]

theorem colDst_lt {n n' : Nat} {D : List Nat} {r : Nat} {ρ : Perm ℕ} (hi : RowInv n n' D r)
    (hs : Sinks n n' D (r + 1) ρ) {x : ℕ} (hX : Xn n D r = some x) : colDst n' r ρ < n / 2 ^ r := by
  by_contra hc
  have h1 := up1_fix hs (x := colDst n' r ρ) (by omega)
  rw [colDst_spec] at h1
  have h2 := hi.next_counts.2
  rw [hX] at h2
  have h3 := hi.le
  simp at h2
  omega

theorem colDst_zone {n n' : Nat} {D : List Nat} {r : Nat} {ρ : Perm ℕ} (hi : RowInv n n' D r)
    (hs : Sinks n n' D (r + 1) ρ) {x : ℕ} (hX : Xn n D r = some x) :
    Zone (n / 2 ^ (r + 1)) (n.testBit r) (Dn n D (r + 1)) (colDst n' r ρ) := by
  rw [zone_iff hs hi.next.le, colDst_spec]
  have h2 := hi.next_counts.2
  rw [hX] at h2
  have h3 := hi.le
  simp at h2
  omega

theorem sinks_step {n n' : Nat} {D : List Nat} {r : Nat} {ρ : Perm ℕ} (hi : RowInv n n' D r)
    (hs : Sinks n n' D (r + 1) ρ) : Sinks n n' D r (up 1 ρ * rowPerm n n' D r ρ) := by
  have hok := hi.ok
  have hz := zone_iff hs hi.next.le
  have hcnt := hi.next_counts.2
  constructor
  · intro i
    rw [hok.dead i]
    unfold rowPerm
    rw [Perm.mul_apply, Perm.mul_apply]
    generalize hy : seqPerm (Sn n D r) i = y
    rw [hz y]
    cases hX : Xn n D r with
    | none =>
      rw [hX] at hcnt
      simp at hcnt
      simp only [Perm.one_apply, ne_eq, reduceCtorEq, not_false_eq_true, and_true, hcnt]
    | some x =>
      rw [hX] at hcnt
      simp at hcnt
      have hle := hi.le
      have hd := colDst_spec n' r ρ
      have hxz := (hz x).1 (hok.col x hX).1
      simp only [ne_eq, Option.some.injEq]
      generalize colDst n' r ρ = d at *
      by_cases h1 : x = y
      · subst h1
        rw [swap_apply_left, hd]; omega
      · by_cases h2 : y = d
        · subst h2
          rw [swap_apply_right, hd]
          have : up 1 ρ x ≠ up 1 ρ y := fun h => h1 ((up 1 ρ).injective h)
          rw [hd] at this
          constructor
          · intro _; omega
          · intro _; exact ⟨by omega, h1⟩
        · rw [swap_apply_of_ne_of_ne (Ne.symm h1) h2]
          have : up 1 ρ y ≠ up 1 ρ d := fun h => h2 ((up 1 ρ).injective h)
          rw [hd] at this
          constructor
          · rintro ⟨h, _⟩; omega
          · intro h; exact ⟨by omega, h1⟩
  · intro i hii
    rw [Perm.mul_apply]
    have h1 : rowPerm n n' D r ρ i = i := by
      unfold rowPerm
      rw [Perm.mul_apply, seqPerm_fix]
      · cases hX : Xn n D r with
        | none => rfl
        | some x =>
          simp only
          have h1 := hok.zone_lt (hok.col x hX).1
          rw [← div_bit] at h1
          have h2 := colDst_lt hi hs hX
          rw [swap_apply_of_ne_of_ne] <;> omega
      · intro p hp
        have := hok.slot_lt hp
        rw [← div_bit] at this
        omega
    rw [h1]
    exact up1_fix hs hii

theorem sinks_top {n n' : Nat} {D : List Nat} {R : Nat} (hi : RowInv n n' D R) (hn : n ≤ 2 ^ R) :
    Sinks n n' D R 1 := by
  refine ⟨fun i => ?_, fun i _ => rfl⟩
  have h1 : n / 2 ^ R ≤ 1 := by
    calc n / 2 ^ R ≤ 2 ^ R / 2 ^ R := Nat.div_le_div_right hn
      _ = 1 := Nat.div_self (by positivity)
  have hc := hi.count
  have hb := hi.bound
  rw [Perm.one_apply]
  generalize Dn n D R = Q at *
  generalize n / 2 ^ R = A at *
  generalize n' / 2 ^ R = B at *
  match Q, hc, hb with
  | [], hc, hb => simp at hc ⊢; omega
  | [a], hc, hb =>
    simp at hc hb ⊢; omega
  | a :: b :: Q, hc, hb => simp at hc; omega

theorem sinks_sigma {n n' : Nat} {D : List Nat} {R : Nat} (hi : ∀ r, RowInv n n' D r) (hn : n ≤ 2 ^ R) :
    ∀ k r, k + r = R → Sinks n n' D r (sigma n n' D k r) := by
  intro k
  induction k with
  | zero => intro r hr; have : r = R := by omega
            subst this; exact sinks_top (hi r) hn
  | succ k ih => intro r hr; exact sinks_step (hi r) (ih (r + 1) (by omega))

/-- The permutation of all rows from `r` on in a forest with `R` rows. -/
def sg (n n' : Nat) (D : List Nat) (R r : Nat) : Perm ℕ := sigma n n' D (R - r) r

theorem sg_top (n n' : Nat) (D : List Nat) {R r : Nat} (h : R ≤ r) : sg n n' D R r = 1 := by
  unfold sg; rw [show R - r = 0 by omega]; rfl

theorem sg_step (n n' : Nat) (D : List Nat) {R r : Nat} (h : r < R) :
    sg n n' D R r = up 1 (sg n n' D R (r + 1)) * rowPerm n n' D r (sg n n' D R (r + 1)) := by
  unfold sg; rw [show R - r = (R - (r + 1)) + 1 by omega]; rfl

theorem sg_sinks {n n' : Nat} {D : List Nat} {R : Nat} (hi : ∀ r, RowInv n n' D r) (hn : n ≤ 2 ^ R)
    {r : Nat} (hr : r ≤ R) : Sinks n n' D r (sg n n' D R r) :=
  sinks_sigma hi hn (R - r) r (by omega)

/-! ## What the operations of a row touch -/

/-- The facts used when the operations of a row are executed. -/
structure OpsOK (n r : Nat) (D D' : List Nat) (ops : List (ℕ × ℕ × Bool)) : Prop where
  bound : ∀ o ∈ ops, o.1 < n / 2 ^ r ∧ o.2.1 < n / 2 ^ r ∧ o.1 ≠ o.2.1
  dst : ∀ o ∈ ops, o.2.2 = false → o.2.1 / 2 < n / 2 ^ (r + 1) ∧ o.2.1 ∈ D ∧ o.2.1 / 2 ∉ D'
  src : ∀ o ∈ ops, o.1 / 2 ∈ D' ∨ o.1 = 2 * (n / 2 ^ (r + 1))
  col : ∀ o ∈ ops, o.2.2 = true → o.2.1 / 2 ∈ D' ∨ o.2.1 = 2 * (n / 2 ^ (r + 1))
  del : ∀ d ∈ D, d / 2 ∈ D' ∨ d = 2 * (n / 2 ^ (r + 1)) ∨ ∃ o ∈ ops, o.2.2 = false ∧ o.2.1 = d

theorem opsAt_ok {n n' : Nat} {D : List Nat} {r : Nat} {ρ : Perm ℕ} (hi : RowInv n n' D r)
    (hs : Sinks n n' D (r + 1) ρ) :
    OpsOK n r (Dn n D r) (Dn n D (r + 1)) (opsAt n n' D r ρ) := by
  have hok := hi.ok
  have hmem : ∀ o ∈ opsAt n n' D r ρ, (∃ p ∈ Sn n D r, o = (p.1, p.2, false)) ∨
      ∃ x, Xn n D r = some x ∧ x ≠ colDst n' r ρ ∧ o = (x, colDst n' r ρ, true) := by
    intro o ho
    unfold opsAt at ho
    rcases List.mem_append.1 ho with h | h
    · obtain ⟨p, hp, rfl⟩ := List.mem_map.1 h
      exact .inl ⟨p, hp, rfl⟩
    · cases hX : Xn n D r with
      | none => rw [hX] at h; simp at h
      | some x =>
        rw [hX] at h
        simp only at h
        split at h
        · simp at h
        · rename_i hne
          exact .inr ⟨x, rfl, hne, by simpa using h⟩
  have hS : ∀ p ∈ Sn n D r, (p.1, p.2, false) ∈ opsAt n n' D r ρ := by
    intro p hp; unfold opsAt
    exact List.mem_append_left _ (List.mem_map.2 ⟨p, hp, rfl⟩)
  refine ⟨?_, ?_, ?_, ?_, ?_⟩
  · intro o ho
    rcases hmem o ho with ⟨p, hp, rfl⟩ | ⟨x, hX, hne, rfl⟩
    · have h1 := hok.slot_lt hp
      rw [← div_bit] at h1
      obtain ⟨g1, g2, -, -⟩ := hok.swaps p.1 p.2 hp
      exact ⟨h1.1, h1.2, fun e => g2 (e ▸ g1)⟩
    · have h1 := hok.zone_lt (hok.col x hX).1
      rw [← div_bit] at h1
      exact ⟨h1, colDst_lt hi hs hX, hne⟩
  · intro o ho hf
    rcases hmem o ho with ⟨p, hp, rfl⟩ | ⟨x, hX, hne, rfl⟩
    · obtain ⟨g1, g2, g3, g4⟩ := hok.swaps p.1 p.2 hp
      have h1 := (hok.slot_lt hp).2
      refine ⟨?_, g1, fun h => g4 (.inl h)⟩
      by_cases hb : n.testBit r = true
      · have h2 : p.2 ≠ 2 * (n / 2 ^ (r + 1)) := fun h => g4 (.inr ⟨hb, h⟩)
        rw [hb] at h1; simp at h1
        show p.2 / 2 < _
        omega
      · simp only [Bool.not_eq_true] at hb
        rw [hb] at h1; simp at h1
        show p.2 / 2 < _
        omega
    · simp at hf
  · intro o ho
    rcases hmem o ho with ⟨p, hp, rfl⟩ | ⟨x, hX, hne, rfl⟩
    · exact (hok.swaps p.1 p.2 hp).2.2.1.imp id (·.2)
    · exact (hok.col x hX).1.imp id (·.2)
  · intro o ho hf
    rcases hmem o ho with ⟨p, hp, rfl⟩ | ⟨x, hX, hne, rfl⟩
    · simp at hf
    · exact (colDst_zone hi hs hX).imp id (·.2)
  · intro d hd
    rcases mem_or_fix (Sn n D r) d with ⟨w, hw⟩ | ⟨s, hs'⟩ | hf
    · exact absurd hd (hok.swaps d w hw).2.1
    · exact .inr (.inr ⟨_, hS _ hs', rfl, rfl⟩)
    · rcases ((hok.rest d hf).1 hd).1 with h | h
      · exact .inl h
      · exact .inr (.inl h.2)

/-! ## Executing a row's swaps before its collapse, seen from a lower collapse -/

/-- For the node under which the lower collapses end up, the order of swaps and collapse does not
matter. -/
theorem rowPerm_symm {n n' : Nat} {D : List Nat} {r : Nat} {ρ : Perm ℕ} (hi : RowInv n n' D r)
    {e : ℕ} (he : up 1 ρ e = n' / 2 ^ r) :
    (rowPerm n n' D r ρ).symm e =
      (match Xn n D r with
        | none => 1
        | some x => swap x (colDst n' r ρ) : Perm ℕ) (seqPerm (Sn n D r) e) := by
  have hok := hi.ok
  have hinv : ∀ y, (seqPerm (Sn n D r)).symm y = seqPerm (Sn n D r) y := by
    intro y
    exact congrArg (fun p : Perm ℕ => p y) (seqPerm_invol hok.disj)
  rw [Equiv.symm_apply_eq]
  unfold rowPerm
  rw [Perm.mul_apply]
  have hcnt := hi.next_counts.2
  cases hX : Xn n D r with
  | none =>
    simp only [Perm.one_apply]
    rw [← hinv, Equiv.symm_apply_apply]
  | some x =>
    simp only
    rw [hX] at hcnt
    simp only [Option.toList_some, List.length_singleton] at hcnt
    have hd := colDst_spec n' r ρ
    obtain ⟨c1, c2, c3, c4⟩ := hok.col x hX
    have hxS : ∀ p ∈ Sn n D r, p.1 ≠ x ∧ p.2 ≠ x := fun p hp =>
      ⟨c3 p hp, fun h => c2 (h ▸ (hok.swaps p.1 p.2 hp).1)⟩
    generalize hde : colDst n' r ρ = d at *
    -- `e` and `d` are siblings
    have hed : e = d ^^^ 1 ∧ e % 2 = 1 := by
      rw [up1_apply] at he hd
      have h1 : e % 2 = 1 := by omega
      have h2 : d % 2 = 0 := by omega
      have h3 : e / 2 = d / 2 := ρ.injective (by omega)
      exact ⟨by rw [xor_one_cases, if_pos h2]; omega, h1⟩
    have hne : e ≠ d := by rw [hed.1]; exact sb_ne d
    have hsd : d = e ^^^ 1 := by rw [hed.1, sb_sb]
    rcases mem_or_fix (Sn n D r) e with ⟨w, hw⟩ | ⟨s, hs'⟩ | hf
    · rw [seqPerm_fst hok.disj hw]
      have h1 := hxS _ hw
      have h2 : w ≠ d := by
        intro h
        obtain ⟨-, -, g3, g4⟩ := hok.swaps e w hw
        rcases g3 with g3 | ⟨-, g3⟩
        · exact g4 (.inl (by rw [h, hsd, sb_div]; exact g3))
        · omega
      rw [swap_apply_of_ne_of_ne h1.2 h2, seqPerm_snd hok.disj hw, swap_apply_of_ne_of_ne h1.1 hne]
    · rw [seqPerm_snd hok.disj hs']
      have h1 := hxS _ hs'
      have h2 : s ≠ d := by
        intro h
        obtain ⟨g1, -, g3, g4⟩ := hok.swaps s e hs'
        rcases g3 with g3 | ⟨g0, g3⟩
        · exact g4 (.inl (by rw [← sb_div, ← hsd, ← h]; exact g3))
        · -- the root has no sibling
          have h3 := hok.boundD e g1
          rw [hsd] at h
          rw [g0] at h3
          simp at h3
          rw [xor_one_cases, if_neg (by omega)] at h
          omega
      rw [swap_apply_of_ne_of_ne h1.1 h2, seqPerm_fst hok.disj hs', swap_apply_of_ne_of_ne h1.2 hne]
    · rw [seqPerm_fix hf]
      by_cases hex : e = x
      · subst hex
        rw [swap_apply_left]
        rcases c4 with c4 | ⟨-, c4⟩
        · omega
        · rw [seqPerm_fix, swap_apply_right]
          intro p hp; rw [hsd]; exact c4 p hp
      · rw [swap_apply_of_ne_of_ne hex hne, seqPerm_fix hf, swap_apply_of_ne_of_ne hex hne]

end Utreexo
