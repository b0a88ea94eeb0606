import Verif.Proof.RamLarge
import Verif.Props.Ram

/-!
# C63: deletions in forests of `2^32` leaves and more

`RamForest::SwapSubTrees` computes the number of leaves below a node as `1 << row` in `int` (src/ram_forest.cpp:237). Below `2^32`
leaves no swap reaches row 31, so that `Valid` asks for no more than that. Here is what happens above.
-/

set_option linter.unusedSectionVars false

namespace Utreexo
open Spec Equiv

/-! ## Plans with a swap in row 31 -/

theorem idxNext_range (k : ℕ) : ∀ a c, idxNext (List.range' (2 * a) (2 * k)) c = (List.range' a k, []) := by
  induction k with
  | zero => intro a c; rfl
  | succ k ih =>
    intro a c
    have h1 : (2 * a) ||| 1 = 2 * a + 1 := by rw [or_one_cases, if_pos (by omega)]
    have h2 : List.range' (2 * a) (2 * (k + 1)) = 2 * a :: (2 * a + 1) :: List.range' (2 * (a + 1)) (2 * k) := by
      rw [show 2 * (k + 1) = 2 * k + 1 + 1 by ring, List.range'_succ, List.range'_succ]
      rfl
    rw [h2, idxNext, if_pos h1, ih (a + 1) c, List.range'_succ, show 2 * a / 2 = a by omega]

theorem sortU64_range' : ∀ k a, St.sortU64 (List.range' a k) = List.range' a k := by
  intro k
  induction k with
  | zero => intro a; rfl
  | succ k ih =>
    intro a
    rw [List.range'_succ]
    show St.insertSorted a (St.sortU64 (List.range' (a + 1) k)) = _
    rw [ih]
    cases k with
    | zero => rfl
    | succ k => rw [List.range'_succ]; simp [St.insertSorted]

/-- Deleting the first `2^k` leaves deletes the first node of row `k`. -/
theorem Dn_block {n k : ℕ} (hn : 2 ^ (k + 1) ≤ n) : ∀ r, r ≤ k → Dn n (List.range (2 ^ k)) r = List.range (2 ^ (k - r)) := by
  intro r
  induction r with
  | zero => intro _; rfl
  | succ r ih =>
    intro hr
    rw [Dn, ih (by omega)]
    unfold nextD rowNext
    have hb : 2 ^ (k - r) ≤ n / 2 ^ (r + 1) := by
      rw [Nat.le_div_iff_mul_le (by positivity), ← pow_add, show k - r + (r + 1) = k + 1 by omega]
      exact hn
    have h1 : rowTs (n / 2 ^ (r + 1)) (List.range (2 ^ (k - r))) = List.range' (2 * 0) (2 * 2 ^ (k - (r + 1))) := by
      unfold rowTs
      rw [List.filter_eq_self.2, List.range_eq_range']
      · congr 1
        rw [show k - r = k - (r + 1) + 1 by omega, pow_succ]; ring
      · intro x hx
        have := List.mem_range.1 hx
        simp; omega
    simp only
    rw [h1, idxNext_range]
    simp only [oddLast, List.length_nil, Nat.zero_mod, if_true, List.map_nil, ite_self, List.append_nil]
    rw [sortU64_range', List.range_eq_range']

/-- A row where only a node with even index other than the root is deleted has an operation. -/
theorem ops_of_even {n n' : ℕ} {D : List ℕ} {r d : ℕ} {ρ : Perm ℕ} (hd : Dn n D r = [d]) (he : d % 2 = 0) (hlt : d < 2 * (n / 2 ^ (r + 1))) :
    opsAt n n' D r ρ ≠ [] := by
  have hts : rowTs (n / 2 ^ (r + 1)) [d] = [d] := by simp [rowTs, hlt]
  have hid : idxNext [d] 0 = ([], [d]) := by simp [idxNext]
  intro h
  unfold opsAt at h
  obtain ⟨h1, h2⟩ := List.append_eq_nil_iff.1 h
  unfold Sn rowS at h1
  rw [hd, hts, hid] at h1
  have hrp : rowRP (n / 2 ^ (r + 1)) (n.testBit r) [d] = false := by
    by_contra hc
    rw [Bool.not_eq_false] at hc
    rw [hc] at h1
    simp [oddLast] at h1
  have hX : Xn n D r = some (d ^^^ 1) := by
    unfold Xn rowX
    rw [hd, hts, hid, hrp]
    simp
  rw [hX] at h2
  simp only [ite_eq_left_iff, List.cons_ne_nil, imp_false, not_not] at h2
  have hc := colDst_spec n' r ρ
  rw [← h2, up1_apply] at hc
  rw [xor_one_cases, if_pos he] at hc
  omega

variable {H : Type} [DecidableEq H] [HashOps H]

namespace Ram

theorem transform_rows {n : ℕ} (hn : n ≤ 2 ^ 62) {D : List ℕ} (hs : D.Pairwise (· < ·)) (hb : ∀ i ∈ D, i < n) :
    ∃ rows, St.transform n D = .ok rows ∧
      ((∀ r row, rows[r]? = some row → row ≠ [] → r < 31) ↔ Calm n D) := by
  have hlen : D.length ≤ n := by
    have := sorted_length_add_le D 0 n hs (fun x hx => ⟨Nat.zero_le _, hb x hx⟩) (Nat.zero_le _)
    omega
  have hnR : n ≤ 2 ^ St.numRows n := le_two_pow_numRows (by omega)
  have hi := rowInv hs hb (n' := n - D.length) (by omega)
  refine ⟨_, transform_eq hn hs hb, ?_⟩
  have hv := visited_le n D (St.numRows n) 0
  constructor
  · intro h r hr hne
    by_cases hrv : r < visited n D (St.numRows n) 0
    · refine h r _ (by rw [List.getElem?_map, List.getElem?_range' hrv]; rfl) ?_
      rw [Nat.zero_add, Nat.one_mul]
      unfold posOps
      rw [ne_eq, List.map_eq_nil_iff]
      exact hne
    · exact absurd (nil_opsAt hi hnR hr (visited_nil hi (St.numRows n) 0 r (by omega) (by omega))) hne
  · intro h r row hrow hne
    have hrv : r < visited n D (St.numRows n) 0 := by
      have := (List.getElem?_eq_some_iff.1 hrow).1
      simpa using this
    rw [List.getElem?_map, List.getElem?_range' hrv] at hrow
    simp only [Option.map_some, Option.some.injEq, Nat.zero_add, Nat.one_mul] at hrow
    subst hrow
    apply h r (by omega)
    intro hc
    apply hne
    rw [hc]; rfl

end Ram

open Ram

/-- C63: in a forest of any size (up to `2^62` leaves) a call of `Modify` with sane targets and new hashes has undefined behaviour
if the deletion swaps two nodes of row 31 or above; otherwise it does what it does in smaller forests and can be undone. -/
theorem C63_exact (s : RamForest H) (st : List (UndoBatch H × RamForest H)) (h : Run s st) (L : List H) (hL : Represents s L)
    (leaves : List (Leaf H)) (targets : List ℕ) (hs : targets.Pairwise (· < ·)) (hb : ∀ t ∈ targets, t < L.length)
    (hd : (leaves.map Prod.fst).Nodup) (hf : ∀ x ∈ survivors L targets, x ∉ leaves.map Prod.fst)
    (ht : L.length - targets.length + leaves.length ≤ 2 ^ 62) :
    ∃ rows, St.transform L.length targets = .ok rows ∧
      ((∃ r row, rows[r]? = some row ∧ row ≠ [] ∧ 31 ≤ r) → modify s leaves targets = .error .ub) ∧
      ((∀ r row, rows[r]? = some row → row ≠ [] → r < 31) →
        ∃ u s' L' s'', modify s leaves targets = .ok (true, some u, s') ∧ Represents s' L' ∧
          Modified L (leaves.map Prod.fst) targets L' ∧ undo s' u = .ok (true, s'') ∧ Represents s'' L) := by
  obtain ⟨n, f, h1, h2, h3⟩ := h.inv
  have e := hL.unique (h1.represents h2)
  subst e
  simp only [List.length_map, List.length_range] at hb ht ⊢
  obtain ⟨rows, e1, e2⟩ := transform_rows h2 hs hb
  refine ⟨rows, e1, ?_, ?_⟩
  · rintro ⟨r, row, q1, q2, q3⟩
    have hc : ¬ Calm n targets := fun hc => absurd (e2.2 hc r row q1 q2) (by omega)
    unfold Calm at hc
    push_neg at hc
    obtain ⟨q, w1, w2, w3⟩ := hc
    unfold Ram.modify
    rw [remove_ub h1 h2 hs hb w1 w3 w2]
    rfl
  · intro hr
    obtain ⟨s', g1, g2, g3⟩ := modify_ok (leaves := leaves) h1 h2 (e2.1 hr) hs hb ht hd (by
      intro x hx hxD l hl he
      refine hf (f x) ?_ (by rw [he]; exact List.mem_map_of_mem hl)
      rw [survivors_range]
      apply List.mem_map_of_mem
      simp [hx, hxD])
    obtain ⟨f1, f2⟩ := sg_facts h2 hs hb
    obtain ⟨s'', k1, k2, k3⟩ := undo_ok (f := f) h2 hs hb (fun x y hx hy he => h1.pos.inj hx hy he) g2 ht
      (fun x hx => by rw [addLeaves_below _ _ _ _ hx]; rfl) (by have := h1.cells.rows; omega)
    refine ⟨_, s', _, s'', g1, g2.represents ht, ⟨(List.range (n - targets.length)).map
      (f ∘ (sg n (n - targets.length) targets (St.numRows n) 0).symm), ?_, ?_⟩, k1, k2.represents h2⟩
    · rw [survivors_range, ← List.map_map]
      exact (range_perm f1 (Nat.sub_le _ _) f2).map f
    · have := addLeaves_range (f ∘ (sg n (n - targets.length) targets (St.numRows n) 0).symm) (n - targets.length)
        (leaves.map Prod.fst)
      rw [List.length_map] at this
      exact this

theorem Ram.even_ub {s : RamForest H} {n : ℕ} {f : ℕ → H} (h : Inv s n f) (hn : n ≤ 2 ^ 62) (h32 : 2 ^ 32 ≤ n) {D : List ℕ}
    (hs : D.Pairwise (· < ·)) (hb : ∀ i ∈ D, i < n) {d : ℕ} (hd : Dn n D 31 = [d]) (he : d % 2 = 0)
    (hlt : d < 2 * (n / 2 ^ 32)) (leaves : List (Leaf H)) : modify s leaves D = .error .ub := by
  have hR : 31 < St.numRows n := by
    by_contra hc
    have := (numRows_le_iff (n := n) (by omega) 31).1 (by omega)
    omega
  unfold Ram.modify
  rw [remove_ub h hn hs hb hR le_rfl (ops_of_even hd he hlt)]
  rfl

/-- C63: the bound of `2^32` leaves in `Valid` is sharp: in every larger forest deleting the first `2^31` leaves has undefined
behaviour. -/
theorem C63_sharp (s : RamForest H) (st : List (UndoBatch H × RamForest H)) (h : Run s st) (L : List H) (hL : Represents s L)
    (hn : 2 ^ 32 ≤ L.length) (leaves : List (Leaf H)) : modify s leaves (List.range (2 ^ 31)) = .error .ub := by
  obtain ⟨n, f, h1, h2, h3⟩ := h.inv
  have e := hL.unique (h1.represents h2)
  subst e
  simp only [List.length_map, List.length_range] at hn
  have hd := Dn_block (n := n) (k := 31) (by omega) 31 le_rfl
  exact even_ub h1 h2 hn List.pairwise_lt_range (fun i hi => by have := List.mem_range.1 hi; omega) (d := 0)
    (by rw [hd]; rfl) rfl (by omega) leaves

/-- C63: in a forest of `m * 2^32` leaves even deleting a single leaf has undefined behaviour, for every second run of `2^31` leaves. -/
theorem C63_single (s : RamForest H) (st : List (UndoBatch H × RamForest H)) (h : Run s st) (L : List H) (hL : Represents s L)
    (hn : L.length % 2 ^ 32 = 0) (t : ℕ) (ht : t < L.length) (hbit : t.testBit 31 = false) (leaves : List (Leaf H)) :
    modify s leaves [t] = .error .ub := by
  obtain ⟨n, f, h1, h2, h3⟩ := h.inv
  have e := hL.unique (h1.represents h2)
  subst e
  simp only [List.length_map, List.length_range] at hn ht
  have hd := Dn_single (k := 32) hn ht 31 (by omega)
  rw [Nat.testBit_eq_decide_div_mod_eq] at hbit
  refine even_ub h1 h2 (by omega) (by simp) (by simpa using ht) hd (by simpa using hbit) ?_ leaves
  omega

/-- There are such forests. -/
theorem C63_exists (k : ℕ) (hk : k ≤ 2 ^ 62) [HashOps ℕ] : ∃ s st, Run (H := ℕ) s st ∧ Represents s (List.range k) := by
  obtain ⟨u, s, -, a2, a3⟩ := C17_add (H := ℕ) (mk 0) [] Run.empty [] (by
    obtain ⟨L, hL, -⟩ := C16_represents (H := ℕ) (mk 0) [] Run.empty
    have : L = [] := by
      have := hL.count
      exact List.eq_nil_of_length_eq_zero this.symm
    rw [← this]; exact hL) ((List.range k).map fun i => (i, false))
    ⟨by simp, by simp, by simp [List.map_map, Function.comp_def, List.nodup_range], by simp [survivors], by simp, by simpa using hk⟩
  refine ⟨s, _, a2, ?_⟩
  simpa [List.map_map, Function.comp_def] using a3

end Utreexo
