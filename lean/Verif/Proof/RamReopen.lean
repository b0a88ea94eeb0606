import Verif.Proof.RamUndo
import Mathlib.Data.Nat.Size

/-! # Closing and opening a `RamForest` -/

set_option linter.unusedSectionVars false

namespace Utreexo
open Spec Equiv

variable {H : Type} [DecidableEq H] [HashOps H]

namespace Ram

theorem cells_row {ext : List (List H)} {n : ℕ} {c : ℕ → ℕ → H} (hc : Cells ext n c) {r : ℕ}
    (hr : n / 2 ^ r ≠ 0) : ∃ row, ext[r]? = some row ∧ n / 2 ^ r ≤ row.length ∧
      ∀ i, i < n / 2 ^ r → row[i]? = some (c r i) := by
  obtain ⟨row, h1, -⟩ := cell_some (hc.get r 0 (Nat.pos_of_ne_zero hr))
  have hall : ∀ i, i < n / 2 ^ r → row[i]? = some (c r i) := by
    intro i hi
    have := hc.get r i hi
    unfold cell at this
    rw [h1] at this; exact this
  refine ⟨row, h1, ?_, hall⟩
  have := lt_of_get (hall (n / 2 ^ r - 1) (Nat.sub_lt (Nat.pos_of_ne_zero hr) Nat.one_pos))
  exact Nat.le_of_pred_lt this

theorem reopenRows_ok {ext : List (List H)} {n : ℕ} {c : ℕ → ℕ → H} (hc : Cells ext n c) :
    ∀ (fuel i : ℕ), Nat.size n < fuel + i → i ≤ Nat.size n →
    ∃ rows, reopenRows ext fuel i (n / 2 ^ i) = .ok rows ∧ rows.length + i = Nat.size n + 1 ∧
      ∀ r x, x < n / 2 ^ (i + r) → ∃ row, rows[r]? = some row ∧ row[x]? = some (c (i + r) x) ∧
        row.length = n / 2 ^ (i + r) := by
  intro fuel
  induction fuel with
  | zero => intro i h1 h2; omega
  | succ fuel ih =>
    intro i h1 h2
    rw [reopenRows]
    by_cases h0 : n / 2 ^ i = 0
    · rw [if_pos h0]
      have hlt : n < 2 ^ i := by
        by_contra hc
        have := (Nat.le_div_iff_mul_le (k := 2 ^ i) (x := 1) (y := n) (by positivity)).2 (by omega)
        rw [h0] at this; omega
      have := Nat.size_le.2 hlt
      refine ⟨[[]], rfl, by simp; omega, ?_⟩
      intro r x hx
      have : n / 2 ^ (i + r) = 0 := by
        rw [pow_add, ← Nat.div_div_eq_div_mul, h0, Nat.zero_div]
      rw [this] at hx; omega
    · rw [if_neg h0]
      obtain ⟨row, g1, g2, g3⟩ := cells_row hc (r := i) h0
      have hlt : i < Nat.size n := by
        rw [Nat.lt_size]
        have := (Nat.le_div_iff_mul_le (k := 2 ^ i) (x := 1) (y := n) (by positivity)).1 (Nat.pos_of_ne_zero h0)
        omega
      obtain ⟨rows, k1, k2, k3⟩ := ih (i + 1) (by omega) (by omega)
      have hsh : (n / 2 ^ i) >>> 1 = n / 2 ^ (i + 1) := by
        rw [Nat.shiftRight_eq_div_pow, Nat.div_div_eq_div_mul, ← pow_add]
      refine ⟨row.take (n / 2 ^ i) :: rows, ?_, by simp; omega, ?_⟩
      · rw [vecGet_ok g1, ok_bind, cassert_true (by simpa using g2), ok_bind, hsh, k1, ok_bind]; rfl
      · intro r x hx
        cases r with
        | zero =>
          rw [add_zero] at hx ⊢
          refine ⟨_, rfl, ?_, by simp; omega⟩
          rw [List.getElem?_take, if_pos hx]; exact g3 x hx
        | succ r =>
          rw [show i + (r + 1) = i + 1 + r by omega] at hx ⊢
          exact k3 r x hx

theorem restorePosmap_ok {f : ℕ → H} {n : ℕ} (hinj : ∀ x y, x < n → y < n → f x = f y → x = y) :
    ∀ (k pos : ℕ) (m : PosMap H), pos + k = n → PosMap.Exact m f pos →
    PosMap.Exact (restorePosmap ((List.range' pos k).map f) pos m) f n := by
  intro k
  induction k with
  | zero => intro pos m hk he; have : pos = n := by omega
            subst this; exact he
  | succ k ih =>
    intro pos m hk he
    rw [List.range'_succ, List.map_cons, restorePosmap]
    apply ih (pos + 1) _ (by omega)
    refine (exact_insert he ?_).congr ?_
    · intro x hx hxx
      have := hinj x pos (by omega) (by omega) hxx
      omega
    · intro p hp
      by_cases h : p = pos
      · rw [h, Function.update_self]
      · rw [Function.update_of_ne h]

theorem reopen_ok {s : RamForest H} {n : ℕ} {f : ℕ → H} (h : Inv s n f) (hn : n ≤ 2 ^ 62) :
    ∃ s', reopen s = .ok s' ∧ Inv s' n f ∧ s'.ext.length = Nat.size n + 1 := by
  have hsz : Nat.size n ≤ 63 := Nat.size_le.2 (by omega)
  obtain ⟨rows, r1, r2, r3⟩ := reopenRows_ok h.cells 66 0 (by omega) (by omega)
  simp only [pow_zero, Nat.div_one, zero_add, add_zero] at r1 r2 r3
  have hhead : rows.headD [] = (List.range' 0 n).map f := by
    by_cases h0 : n = 0
    · subst h0
      have : rows = [[]] := by
        have e : reopenRows s.ext 66 0 0 = .ok [[]] := rfl
        rw [e] at r1; injection r1 with r1; exact r1.symm
      rw [this]; rfl
    · obtain ⟨row, g1, -, g3⟩ := r3 0 0 (by simp; omega)
      have e : rows.headD [] = row := by
        cases rows with
        | nil => simp at g1
        | cons a t => simpa using g1
      rw [e]
      apply List.ext_getElem?
      intro i
      rw [List.getElem?_map]
      by_cases hi : i < n
      · obtain ⟨row', k1, k2, -⟩ := r3 0 i (by simpa using hi)
        rw [g1] at k1
        injection k1 with k1
        rw [← k1] at k2
        rw [k2, List.getElem?_range' hi, mt_zero]; simp
      · rw [List.getElem?_eq_none (by simp at g3; omega), List.getElem?_eq_none (by simpa using hi)]; rfl
  have hrows : St.numRows n < rows.length := by
    have : St.numRows n ≤ Nat.size n := (numRows_le_iff (by omega) _).2 (le_of_lt (Nat.lt_size_self n))
    omega
  have hcells : Cells rows n (mt f) := by
    refine ⟨hrows, ?_⟩
    intro r i hi
    obtain ⟨row, g1, g2, -⟩ := r3 r i hi
    unfold cell
    rw [g1]; exact g2
  have hex := restorePosmap_ok (f := f) (n := n) (fun x y hx hy he => h.pos.inj hx hy he) n 0 [] (by omega)
    ⟨List.nodup_nil, rfl, by intro h p; simp [PosMap.find]⟩
  obtain ⟨s', k1, k2, k3⟩ := restoreRoots_ok (s := {
      numLeaves := n
      roots := []
      posmap := restorePosmap ((List.range' 0 n).map f) 0 []
      ext := rows }) rfl hn hcells hex
  refine ⟨s', ?_, k2, by rw [k3]; exact r2⟩
  unfold reopen
  rw [h.num, r1, ok_bind, hhead]
  exact k1

end Ram
end Utreexo
