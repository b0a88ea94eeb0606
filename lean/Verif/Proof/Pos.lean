import Verif.Model.State
import Verif.Spec.Forest
import Mathlib.Tactic.Ring
import Mathlib.Tactic.Linarith

/-! # Position arithmetic of `ForestState` in (row, index) coordinates -/

namespace Utreexo
open Spec

/-! ## The result monad -/

@[simp] theorem ok_bind {α β : Type _} (a : α) (f : α → Res β) :
    ((Except.ok a : Res α) >>= f) = f a := rfl
@[simp] theorem error_bind {α β : Type _} (e : Fault) (f : α → Res β) :
    ((Except.error e : Res α) >>= f) = .error e := rfl
@[simp] theorem pure_ok {α : Type _} (a : α) : (pure a : Res α) = .ok a := rfl

theorem bind_eq_ok {α β : Type _} {x : Res α} {f : α → Res β} {b : β} :
    (x >>= f) = .ok b ↔ ∃ a, x = .ok a ∧ f a = .ok b := by
  cases x <;> simp

theorem cassert_true {b : Bool} (h : b = true) : cassert b = .ok () := by simp [cassert, h]

theorem vecAt_ok {α : Type _} {v : List α} {i : Nat} {x : α} (h : v[i]? = some x) :
    vecAt v i = .ok x := by simp [vecAt, h]

theorem vecGet_ok {α : Type _} {v : List α} {i : Nat} {x : α} (h : v[i]? = some x) :
    vecGet v i = .ok x := by simp [vecGet, h]

/-! ## Shifts -/

theorem two64_eq : two64 = 2 ^ 64 := by decide

theorem shl64_ok {a s : Nat} (h : s < 64) : shl64 a (s : Int) = .ok (a * 2 ^ s % 2 ^ 64) := by
  unfold shl64
  rw [if_pos (by omega)]
  simp [Nat.shiftLeft_eq, two64_eq]

theorem shr64_ok {a s : Nat} (h : s < 64) : shr64 a (s : Int) = .ok (a / 2 ^ s) := by
  unfold shr64
  rw [if_pos (by omega)]
  simp [Nat.shiftRight_eq_div_pow]

theorem sub64_ok {a b : Nat} (h : b ≤ a) (ha : a < 2 ^ 64) : sub64 a b = a - b := by
  unfold sub64
  rw [two64_eq]
  rw [show a + (2 ^ 64 - b) = (a - b) + 2 ^ 64 by omega]
  rw [Nat.add_mod_right, Nat.mod_eq_of_lt (by omega)]

theorem wrap64_ok {a : Nat} (ha : a < 2 ^ 64) : wrap64 a = a := by
  unfold wrap64; rw [two64_eq, Nat.mod_eq_of_lt ha]

/-! ## Number of rows -/

theorem countBitsLoop_eq (fuel x ret : Nat) (h : x < 2 ^ fuel) :
    countBitsLoop fuel x ret = ret + (if x = 0 then 0 else x.log2 + 1) := by
  induction fuel generalizing x ret with
  | zero => simp at h; simp [countBitsLoop, h]
  | succ k ih =>
    unfold countBitsLoop
    by_cases hx : x = 0
    · simp [hx]
    · simp only [hx, if_false]
      rw [ih _ _ (by rw [Nat.shiftRight_eq_div_pow]; omega)]
      rw [Nat.shiftRight_eq_div_pow]
      by_cases h2 : x < 2
      · have : x = 1 := by omega
        subst this; simp [Nat.log2_def]
      · have hl : x.log2 = (x / 2).log2 + 1 := by rw [Nat.log2_def, if_pos (by omega)]
        have : x / 2 ^ 1 ≠ 0 := by omega
        rw [if_neg this, hl, pow_one]; omega

theorem countBits_eq (x : Nat) (h : x < 2 ^ 64) :
    countBits x = if x = 0 then 0 else x.log2 + 1 := by
  unfold countBits; rw [countBitsLoop_eq _ _ _ h]; simp

theorem numRows_le_iff {n : Nat} (hn : n < 2 ^ 64) (h : Nat) : St.numRows n ≤ h ↔ n ≤ 2 ^ h := by
  unfold St.numRows
  by_cases h0 : n = 0
  · simp [h0]
  · simp only [h0, if_false]
    rw [countBits_eq _ (by omega)]
    by_cases h1 : n - 1 = 0
    · have : n = 1 := by omega
      subst this; simp [Nat.one_le_two_pow]
    · simp only [h1, if_false]
      have := Nat.log2_lt (n := n - 1) (k := h) h1
      omega

theorem le_two_pow_numRows {n : Nat} (hn : n < 2 ^ 64) : n ≤ 2 ^ St.numRows n :=
  (numRows_le_iff hn _).1 le_rfl

theorem numRows_isRows {n : Nat} (hn : n < 2 ^ 64) : IsRows n (St.numRows n) :=
  ⟨le_two_pow_numRows hn, fun h hh => (numRows_le_iff hn h).2 hh⟩

theorem numRows_le_62 {n : Nat} (hn : n ≤ 2 ^ 62) : St.numRows n ≤ 62 :=
  (numRows_le_iff (by omega) 62).2 hn

theorem numRows_le_63 {n : Nat} (hn : n ≤ 2 ^ 63) : St.numRows n ≤ 63 :=
  (numRows_le_iff (by omega) 63).2 hn

/-! ## Rows -/

theorem rowStart_eq (R r : Nat) (h : r ≤ R + 1) : rowStart R r = 2 ^ (R + 1) - 2 ^ (R + 1 - r) := by
  induction r with
  | zero => simp [rowStart]
  | succ r ih =>
    rw [rowStart, ih (by omega)]
    have h1 : 2 ^ (R + 1 - r) = 2 * 2 ^ (R - r) := by
      rw [show R + 1 - r = (R - r) + 1 by omega, pow_succ]; ring
    have h2 : 2 ^ (R + 1 - r) ≤ 2 ^ (R + 1) := Nat.pow_le_pow_right (by omega) (by omega)
    rw [show R + 1 - (r + 1) = R - r by omega]
    omega

theorem rowStart_mul (R r : Nat) (h : r ≤ R + 1) :
    rowStart R r = 2 ^ (R + 1 - r) * (2 ^ r - 1) := by
  rw [rowStart_eq R r h, Nat.mul_sub, ← pow_add, show R + 1 - r + r = R + 1 by omega, mul_one]

/-- Bound on the index of a node on row `r`. -/
theorem posOf_lt {R r i : Nat} (hr : r ≤ R + 1) (hi : i < 2 ^ (R + 1 - r)) :
    posOf R r i < 2 ^ (R + 1) := by
  have h2 : 2 ^ (R + 1 - r) ≤ 2 ^ (R + 1) := Nat.pow_le_pow_right (by omega) (by omega)
  unfold posOf; rw [rowStart_eq R r hr]; omega

theorem lt_of_row {R r i : Nat} (hi : i < 2 ^ (R - r)) : i < 2 ^ (R + 1 - r) :=
  lt_of_lt_of_le hi (Nat.pow_le_pow_right (by omega) (by omega))

theorem maxNodes_eq {n : Nat} (h : St.numRows n ≤ 63) :
    St.maxNodes n = .ok (2 ^ (St.numRows n + 1) - 1) := by
  unfold St.maxNodes
  rw [shl64_ok (by omega)]
  simp only [ok_bind, pure_ok]
  apply congrArg Except.ok
  generalize St.numRows n = R at h
  by_cases h63 : R = 63
  · subst h63; decide
  · have : 2 ^ (R + 1) ≤ 2 ^ 63 := Nat.pow_le_pow_right (by omega) (by omega)
    have h1 : 1 ≤ 2 ^ (R + 1) := Nat.one_le_two_pow
    rw [show 2 * 2 ^ R = 2 ^ (R + 1) by rw [pow_succ]; ring]
    rw [Nat.mod_eq_of_lt (by omega), sub64_ok h1 (by omega)]

theorem pow_mod_64 {R : Nat} (h : R ≤ 63) : 2 ^ R % 2 ^ 64 = 2 ^ R := by
  apply Nat.mod_eq_of_lt
  exact Nat.pow_lt_pow_right (by omega) (by omega)

theorem detectRowLoop_eq (R r i : Nat) (hr : r ≤ R + 1) (hi : i < 2 ^ (R - r)) :
    ∀ (fuel k : Nat), k ≤ r → r - k < fuel →
      St.detectRowLoop fuel (posOf R r i) (2 ^ R / 2 ^ k) k = .ok r := by
  intro fuel
  induction fuel with
  | zero => intro k _ h; omega
  | succ fuel ih =>
    intro k hk hf
    unfold St.detectRowLoop
    have hpos : posOf R r i = 2 ^ (R + 1 - r) * (2 ^ r - 1) + i := by
      unfold posOf; rw [rowStart_mul R r hr]
    have tb : ∀ j, (posOf R r i).testBit j =
        if j < R + 1 - r then i.testBit j else (2 ^ r - 1).testBit (j - (R + 1 - r)) := by
      intro j; rw [hpos]; exact Nat.testBit_two_pow_mul_add _ (lt_of_row hi) j
    by_cases hkr : k = r
    · subst hkr
      have : posOf R k i &&& 2 ^ R / 2 ^ k = 0 := by
        by_cases hkR : k ≤ R
        · rw [Nat.pow_div hkR (by omega)]
          apply Nat.eq_of_testBit_eq
          intro j
          rw [Nat.testBit_and, Nat.testBit_two_pow, Nat.zero_testBit, tb]
          by_cases hj : R - k = j
          · subst hj
            rw [if_pos (by omega), Nat.testBit_lt_two_pow hi]; simp
          · simp [hj]
        · have : k = R + 1 := by omega
          subst this
          have : 2 ^ R / 2 ^ (R + 1) = 0 := Nat.div_eq_of_lt (Nat.pow_lt_pow_right (by omega) (by omega))
          rw [this]; simp
      rw [if_pos this]
    · have hkR : k ≤ R := by omega
      have : posOf R r i &&& 2 ^ R / 2 ^ k ≠ 0 := by
        rw [Nat.pow_div hkR (by omega)]
        intro h0
        have : (posOf R r i &&& 2 ^ (R - k)).testBit (R - k) = false := by rw [h0]; simp
        rw [Nat.testBit_and, Nat.testBit_two_pow_self, tb, if_neg (by omega),
          Nat.testBit_two_pow_sub_one] at this
        simp at this
        omega
      rw [if_neg this]
      rw [Nat.shiftRight_eq_div_pow, Nat.div_div_eq_div_mul, ← pow_add]
      exact ih (k + 1) (by omega) (by omega)

theorem detectRow_posOf {n : Nat} (hR : St.numRows n ≤ 63) {r i : Nat}
    (hr : r ≤ St.numRows n + 1) (hi : i < 2 ^ (St.numRows n - r)) :
    St.detectRow n (posOf (St.numRows n) r i) = .ok r := by
  unfold St.detectRow
  rw [shl64_ok (by omega)]
  simp only [ok_bind, one_mul, pow_mod_64 hR]
  have := detectRowLoop_eq (St.numRows n) r i hr hi 66 0 (by omega) (by omega)
  simpa using this

theorem and_mask (x k : Nat) : x &&& (2 ^ k - 1) = x % 2 ^ k := Nat.and_two_pow_sub_one_eq_mod x k

theorem mod_64_mod {x k : Nat} (h : k ≤ 64) : x % 2 ^ 64 % 2 ^ k = x % 2 ^ k :=
  Nat.mod_mod_of_dvd x (pow_dvd_pow 2 h)

theorem sub_one_mul_mod (a b k : Nat) (hk : k ≤ a) (hb : a = b + k) :
    (2 ^ a - 1) * 2 ^ k % 2 ^ a = 2 ^ a - 2 ^ k := by
  subst hb
  have h1 : 1 ≤ 2 ^ k := Nat.one_le_two_pow
  have h2 : 2 ^ k ≤ 2 ^ (b + k) := Nat.pow_le_pow_right (by omega) (by omega)
  have : (2 ^ (b + k) - 1) * 2 ^ k = 2 ^ (b + k) * (2 ^ k - 1) + (2 ^ (b + k) - 2 ^ k) := by
    obtain ⟨c, hc⟩ : ∃ c, 2 ^ k = c + 1 := ⟨2 ^ k - 1, by omega⟩
    obtain ⟨d, hd⟩ : ∃ d, 2 ^ (b + k) = d + 2 ^ k := ⟨2 ^ (b + k) - 2 ^ k, by omega⟩
    rw [hd, hc]
    simp only [Nat.add_sub_cancel]
    rw [show d + (c + 1) - 1 = d + c by omega]
    ring
  rw [this, Nat.mul_add_mod, Nat.mod_eq_of_lt (by omega)]

theorem rowOffsetOfRow_eq {n : Nat} (hR : St.numRows n ≤ 63) {r : Nat}
    (hr : r ≤ St.numRows n + 1) (h0 : St.numRows n + 1 - r < 64) :
    St.rowOffsetOfRow n r = .ok (rowStart (St.numRows n) r) := by
  unfold St.rowOffsetOfRow
  rw [maxNodes_eq hR]
  have : ((St.numRows n : Int) + 1 - r) = ((St.numRows n + 1 - r : Nat) : Int) := by omega
  simp only [ok_bind, this]
  rw [shl64_ok h0]
  simp only [ok_bind, pure_ok]
  congr 1
  generalize St.numRows n = R at *
  rw [and_mask, mod_64_mod (by omega), rowStart_eq R r hr]
  have h64 : 18446744073709551615 = 2 ^ (R + 1) * (2 ^ (63 - R) - 1) + (2 ^ (R + 1) - 1) := by
    have a1 : 1 ≤ 2 ^ (R + 1) := Nat.one_le_two_pow
    have a2 : 1 ≤ 2 ^ (63 - R) := Nat.one_le_two_pow
    have : 2 ^ (R + 1) * 2 ^ (63 - R) = 2 ^ 64 := by rw [← pow_add]; congr 1; omega
    rw [Nat.mul_sub, this, mul_one]
    have : 2 ^ (R + 1) ≤ 2 ^ 64 := Nat.pow_le_pow_right (by omega) (by omega)
    omega
  rw [h64, add_mul, mul_assoc, Nat.mul_add_mod]
  rw [sub_one_mul_mod (R + 1) r (R + 1 - r) (by omega) (by omega)]

theorem rowOffset_posOf {n : Nat} (hR : St.numRows n ≤ 63) {r i : Nat}
    (hr : r ≤ St.numRows n + 1) (h0 : St.numRows n + 1 - r < 64)
    (hi : i < 2 ^ (St.numRows n - r)) :
    St.rowOffset n (posOf (St.numRows n) r i) = .ok (rowStart (St.numRows n) r) := by
  unfold St.rowOffset
  rw [detectRow_posOf hR hr hi]
  simp only [ok_bind]
  exact rowOffsetOfRow_eq hR hr h0

/-! ## Navigation -/

theorem parent_posOf {n : Nat} (hR : St.numRows n ≤ 63) {r i : Nat}
    (hr : r ≤ St.numRows n) (hi : i < 2 ^ (St.numRows n + 1 - r)) :
    St.parent n (posOf (St.numRows n) r i) = .ok (posOf (St.numRows n) (r + 1) (i / 2)) := by
  unfold St.parent
  rw [shl64_ok (by omega)]
  simp only [ok_bind, pure_ok, one_mul, pow_mod_64 hR]
  congr 1
  generalize St.numRows n = R at *
  have hlt := posOf_lt (R := R) (by omega) hi
  rw [Nat.shiftRight_eq_div_pow, pow_one, Nat.or_comm, ← mul_one (2 ^ R),
    ← Nat.two_pow_add_eq_or_of_lt (by rw [pow_succ] at hlt; omega)]
  unfold posOf
  rw [rowStart_eq R r (by omega), rowStart_eq R (r + 1) (by omega)]
  have h1 : 2 ^ (R + 1 - r) = 2 * 2 ^ (R - r) := by
    rw [show R + 1 - r = (R - r) + 1 by omega, pow_succ]; ring
  have h2 : 2 ^ (R - r) ≤ 2 ^ R := Nat.pow_le_pow_right (by omega) (by omega)
  rw [show R + 1 - (r + 1) = R - r by omega, h1, pow_succ]
  omega

theorem leftChild_posOf {n : Nat} (hR : St.numRows n ≤ 63) {r i : Nat}
    (hr : r ≤ St.numRows n) (hi : i < 2 ^ (St.numRows n - r)) :
    St.leftChild n (posOf (St.numRows n) (r + 1) i) = .ok (posOf (St.numRows n) r (2 * i)) := by
  unfold St.leftChild
  rw [maxNodes_eq hR]
  simp only [ok_bind, pure_ok]
  congr 1
  generalize St.numRows n = R at *
  unfold wrap64 posOf
  rw [and_mask, two64_eq, mod_64_mod (by omega), Nat.shiftLeft_eq, pow_one]
  rw [rowStart_eq R r (by omega), rowStart_eq R (r + 1) (by omega)]
  have h1 : 2 ^ (R + 1 - r) = 2 * 2 ^ (R - r) := by
    rw [show R + 1 - r = (R - r) + 1 by omega, pow_succ]; ring
  have h2 : 2 ^ (R - r) ≤ 2 ^ R := Nat.pow_le_pow_right (by omega) (by omega)
  rw [show R + 1 - (r + 1) = R - r by omega, h1, pow_succ]
  rw [show (2 ^ R * 2 - 2 ^ (R - r) + i) * 2 = (2 ^ R * 2 - 2 * 2 ^ (R - r) + 2 * i) + 2 ^ R * 2 by omega,
    Nat.add_mod_right, Nat.mod_eq_of_lt (by omega)]

theorem or_one_of_even (x b : Nat) (hb : b < 2) : 2 * x ||| b = 2 * x + b := by
  have := Nat.two_pow_add_eq_or_of_lt (i := 1) (b := b) (by simpa using hb) x
  simpa using this.symm

theorem rowStart_even {R r : Nat} (hr : r ≤ R) : ∃ k, rowStart R r = 2 * k := by
  rw [rowStart_mul R r (by omega), show R + 1 - r = (R - r) + 1 by omega, pow_succ]
  exact ⟨2 ^ (R - r) * (2 ^ r - 1), by ring⟩

theorem posOf_even {R r i : Nat} (hr : r ≤ R) : ∃ k, rowStart R r = 2 * k ∧ posOf R r (2 * i) = 2 * (k + i) := by
  obtain ⟨k, hk⟩ := rowStart_even hr
  exact ⟨k, hk, by unfold posOf; omega⟩

theorem child_posOf {n : Nat} (hR : St.numRows n ≤ 63) {r i b : Nat}
    (hr : r ≤ St.numRows n) (hi : i < 2 ^ (St.numRows n - r)) (hb : b < 2) :
    St.child n (posOf (St.numRows n) (r + 1) i) b = .ok (posOf (St.numRows n) r (2 * i + b)) := by
  unfold St.child
  rw [leftChild_posOf hR hr hi]
  simp only [ok_bind, pure_ok]
  congr 1
  obtain ⟨k, _, hk⟩ := posOf_even (i := i) hr
  rw [hk, or_one_of_even _ _ hb, ← hk]
  unfold posOf; omega

theorem xor_one_even (x : Nat) : (2 * x) ^^^ 1 = 2 * x + 1 := by
  apply Nat.eq_of_testBit_eq; intro j
  rcases j with _ | j
  · simp
  · rw [Nat.testBit_succ, Nat.testBit_succ, Nat.xor_div_two]
    simp [show (2 * x + 1) / 2 = x by omega]

theorem xor_one_odd (x : Nat) : (2 * x + 1) ^^^ 1 = 2 * x := by
  have := xor_one_even x
  rw [← this, Nat.xor_assoc]; simp

/-- Index of the sibling. -/
theorem xor_one_cases (i : Nat) : i ^^^ 1 = if i % 2 = 0 then i + 1 else i - 1 := by
  rcases Nat.mod_two_eq_zero_or_one i with h | h
  · obtain ⟨k, rfl⟩ : ∃ k, i = 2 * k := ⟨i / 2, by omega⟩
    rw [xor_one_even]; simp
  · obtain ⟨k, rfl⟩ : ∃ k, i = 2 * k + 1 := ⟨i / 2, by omega⟩
    rw [xor_one_odd]; simp

theorem sibling_posOf {R r i : Nat} (hr : r ≤ R) :
    St.sibling (posOf R r i) = posOf R r (i ^^^ 1) := by
  obtain ⟨k, hk⟩ := rowStart_even hr
  unfold St.sibling posOf
  rw [xor_one_cases, xor_one_cases, hk]
  split <;> split <;> omega

theorem or_one_cases (i : Nat) : i ||| 1 = if i % 2 = 0 then i + 1 else i := by
  rcases Nat.mod_two_eq_zero_or_one i with h | h
  · obtain ⟨k, rfl⟩ : ∃ k, i = 2 * k := ⟨i / 2, by omega⟩
    rw [or_one_of_even _ _ (by omega)]; simp
  · obtain ⟨k, rfl⟩ : ∃ k, i = 2 * k + 1 := ⟨i / 2, by omega⟩
    rw [← or_one_of_even k 1 (by omega), Nat.or_assoc]; simp

theorem rightSibling_posOf {R r i : Nat} (hr : r ≤ R) :
    St.rightSibling (posOf R r i) = posOf R r (i ||| 1) := by
  obtain ⟨k, hk⟩ := rowStart_even hr
  unfold St.rightSibling posOf
  rw [or_one_cases, or_one_cases, hk]
  split <;> split <;> omega

theorem xor_two_cases (i : Nat) : i ^^^ 2 = if i / 2 % 2 = 0 then i + 2 else i - 2 := by
  have h : i ^^^ 2 = 2 * ((i / 2) ^^^ 1) + i % 2 := by
    apply Nat.eq_of_testBit_eq; intro j
    rcases j with _ | j
    · simp [Nat.testBit_zero]
    · rw [Nat.testBit_succ, Nat.testBit_succ]
      rw [show (2 * (i / 2 ^^^ 1) + i % 2) / 2 = i / 2 ^^^ 1 by omega]
      rw [show (i ^^^ 2) / 2 = i / 2 ^^^ 1 from Nat.xor_div_two]
  rw [h, xor_one_cases]
  split <;> omega

theorem cousin_posOf {R r i : Nat} (hr : r + 1 ≤ R) :
    St.cousin (posOf R r i) = posOf R r (i ^^^ 2) := by
  have : ∃ k, rowStart R r = 4 * k := by
    rw [rowStart_mul R r (by omega), show R + 1 - r = (R - (r + 1)) + 2 by omega, pow_add]
    exact ⟨2 ^ (R - (r + 1)) * (2 ^ r - 1), by ring⟩
  obtain ⟨k, hk⟩ := this
  unfold St.cousin posOf
  rw [xor_two_cases, xor_two_cases, hk]
  split <;> split <;> omega

theorem leftDescendant_posOf {n : Nat} (hR : St.numRows n ≤ 63) {r i d : Nat}
    (hr : r + d ≤ St.numRows n) (hi : i < 2 ^ (St.numRows n - (r + d))) :
    St.leftDescendant n (posOf (St.numRows n) (r + d) i) d =
      .ok (posOf (St.numRows n) r (i * 2 ^ d)) := by
  unfold St.leftDescendant
  by_cases hd : d = 0
  · subst hd; simp
  rw [if_neg hd, maxNodes_eq hR]
  simp only [ok_bind]
  rw [shl64_ok (by omega)]
  simp only [ok_bind, pure_ok]
  congr 1
  generalize St.numRows n = R at *
  rw [and_mask, mod_64_mod (by omega)]
  unfold posOf
  rw [rowStart_mul R (r + d) (by omega), rowStart_mul R r (by omega)]
  have e1 : R + 1 - r = (R + 1 - (r + d)) + d := by omega
  have hb : i * 2 ^ d < 2 ^ (R - r) := by
    rw [show R - r = (R - (r + d)) + d by omega, pow_add]
    exact Nat.mul_lt_mul_of_pos_right hi (by positivity)
  have e2 : (2 ^ (R + 1 - (r + d)) * (2 ^ (r + d) - 1) + i) * 2 ^ d
      = 2 ^ (R + 1) * (2 ^ d - 1) + (2 ^ (R + 1 - r) * (2 ^ r - 1) + i * 2 ^ d) := by
    have h1 : 1 ≤ 2 ^ d := Nat.one_le_two_pow
    have h2 : 1 ≤ 2 ^ r := Nat.one_le_two_pow
    have h3 : 2 ^ (R + 1) = 2 ^ (R + 1 - (r + d)) * 2 ^ d * 2 ^ r := by
      rw [← pow_add, ← pow_add]; congr 1; omega
    rw [e1, pow_add, h3, pow_add]
    obtain ⟨a, ha⟩ : ∃ a, 2 ^ d = a + 1 := ⟨2 ^ d - 1, by omega⟩
    obtain ⟨b, hb⟩ : ∃ b, 2 ^ r = b + 1 := ⟨2 ^ r - 1, by omega⟩
    rw [ha, hb]
    rw [show (b + 1) * (a + 1) - 1 = a * b + a + b by
      rw [show (b + 1) * (a + 1) = a * b + a + b + 1 by ring]; simp]
    simp only [Nat.add_sub_cancel]
    ring
  rw [e2, Nat.mul_add_mod, Nat.mod_eq_of_lt]
  have := posOf_lt (R := R) (r := r) (i := i * 2 ^ d) (by omega) (lt_of_row hb)
  unfold posOf at this
  rwa [rowStart_mul R r (by omega)] at this

theorem ancestor_posOf {n : Nat} (hR : St.numRows n ≤ 63) {r i d : Nat}
    (hr : r + d ≤ St.numRows n) (hi : i < 2 ^ (St.numRows n + 1 - r)) :
    St.ancestor n (posOf (St.numRows n) r i) d =
      .ok (posOf (St.numRows n) (r + d) (i / 2 ^ d)) := by
  unfold St.ancestor
  by_cases hd : d = 0
  · subst hd; simp
  rw [if_neg hd, maxNodes_eq hR]
  have hc : ((St.numRows n : Int) - ((d : Int) - 1)) = ((St.numRows n + 1 - d : Nat) : Int) := by omega
  simp only [ok_bind, hc]
  rw [shr64_ok (by omega), shl64_ok (by omega)]
  simp only [ok_bind, pure_ok]
  congr 1
  generalize St.numRows n = R at *
  have hlt := posOf_lt (R := R) (by omega) hi
  rw [Nat.and_or_distrib_right, and_mask, and_mask, mod_64_mod (by omega)]
  rw [sub_one_mul_mod (R + 1) d (R + 1 - d) (by omega) (by omega)]
  have hdiv : posOf R r i / 2 ^ d < 2 ^ (R + 1 - d) := by
    rw [Nat.div_lt_iff_lt_mul (by positivity), ← pow_add, show R + 1 - d + d = R + 1 by omega]
    exact hlt
  rw [Nat.mod_eq_of_lt (lt_of_lt_of_le hdiv (Nat.pow_le_pow_right (by omega) (by omega)))]
  rw [Nat.or_comm, ← rowStart_eq R d (by omega), rowStart_mul R d (by omega),
    ← Nat.two_pow_add_eq_or_of_lt hdiv]
  unfold posOf
  rw [rowStart_mul R r (by omega), rowStart_mul R (r + d) (by omega)]
  have e1 : 2 ^ (R + 1 - r) = 2 ^ (R + 1 - (r + d)) * 2 ^ d := by rw [← pow_add]; congr 1; omega
  have e2 : 2 ^ (R + 1 - d) = 2 ^ (R + 1 - (r + d)) * 2 ^ r := by rw [← pow_add]; congr 1; omega
  rw [e1, e2]
  rw [show 2 ^ (R + 1 - (r + d)) * 2 ^ d * (2 ^ r - 1) = 2 ^ d * (2 ^ (R + 1 - (r + d)) * (2 ^ r - 1)) by ring,
    Nat.mul_add_div (by positivity)]
  rw [← Nat.add_assoc, mul_assoc, ← Nat.mul_add, pow_add 2 r d]
  congr 2
  have h1 : 1 ≤ 2 ^ d := Nat.one_le_two_pow
  have h2 : 1 ≤ 2 ^ r := Nat.one_le_two_pow
  obtain ⟨a, ha⟩ : ∃ a, 2 ^ d = a + 1 := ⟨2 ^ d - 1, by omega⟩
  obtain ⟨b, hb⟩ : ∃ b, 2 ^ r = b + 1 := ⟨2 ^ r - 1, by omega⟩
  rw [ha, hb]
  simp only [Nat.add_sub_cancel]
  rw [show (b + 1) * (a + 1) = (b + 1) * a + b + 1 by ring]
  simp

/-! ## Roots -/

theorem hasRoot_eq {n r : Nat} (h : r < 64) : St.hasRoot n r = .ok (n.testBit r) := by
  unfold St.hasRoot
  rw [shr64_ok h]
  simp only [ok_bind, pure_ok]
  congr 1
  rw [Nat.testBit_eq_decide_div_mod_eq, Nat.and_one_is_mod]
  by_cases hh : n / 2 ^ r % 2 = 1
  · simp [hh]
  · simp [hh]

theorem rootPositionIn_eq {num R r : Nat} (hR : R ≤ 62) (hr : r ≤ R) (hn : num ≤ 2 ^ R) :
    St.rootPositionIn r num R = .ok (posOf R r (rootIdx num r)) := by
  unfold St.rootPositionIn
  rw [shl64_ok (by omega)]
  have hc : ((r : Int) + 1) = ((r + 1 : Nat) : Int) := by omega
  have hc2 : ((R : Int) + 1 - r) = ((R + 1 - r : Nat) : Int) := by omega
  simp only [ok_bind, hc, hc2]
  rw [shl64_ok (by omega), shl64_ok (by omega)]
  simp only [ok_bind]
  rw [shr64_ok (by omega)]
  simp only [ok_bind, pure_ok]
  congr 1
  have hm : sub64 (2 * 2 ^ R % 2 ^ 64) 1 = 2 ^ (R + 1) - 1 := by
    have : 2 ^ (R + 1) ≤ 2 ^ 63 := Nat.pow_le_pow_right (by omega) (by omega)
    have h1 : 1 ≤ 2 ^ (R + 1) := Nat.one_le_two_pow
    rw [show 2 * 2 ^ R = 2 ^ (R + 1) by rw [pow_succ]; ring]
    rw [Nat.mod_eq_of_lt (by omega), sub64_ok h1 (by omega)]
  rw [hm]
  have hnum : num < 2 ^ (R + 1) := by
    have : 0 < 2 ^ R := by positivity
    rw [pow_succ]; omega
  have hbefore : (num &&& (2 ^ (R + 1) - 1) * 2 ^ (r + 1) % 2 ^ 64) / 2 ^ r = rootIdx num r := by
    unfold rootIdx
    apply Nat.eq_of_testBit_eq; intro j
    rw [Nat.testBit_div_two_pow, Nat.testBit_and, Nat.testBit_mod_two_pow,
      Nat.testBit_mul_two_pow, Nat.testBit_two_pow_sub_one, mul_comm (num / 2 ^ (r + 1)) 2,
      ← pow_one 2, Nat.testBit_two_pow_mul, pow_one, Nat.testBit_div_two_pow]
    rcases j with _ | j
    · simp
    · by_cases hbig : R + 1 ≤ j + 1 + r
      · rw [show j + 1 - 1 + (r + 1) = j + 1 + r by omega]
        rw [Nat.testBit_lt_two_pow (lt_of_lt_of_le hnum (Nat.pow_le_pow_right (by omega) hbig))]
        simp
      · rw [show j + 1 - 1 + (r + 1) = j + 1 + r by omega]
        have : (decide (r + 1 ≤ j + 1 + r)) = true := by simp; omega
        have h3 : decide (j + 1 + r < 64) = true := by simp; omega
        have h4 : decide (j + 1 + r - (r + 1) < R + 1) = true := by simp; omega
        have h5 : decide (1 ≤ j + 1) = true := by simp
        rw [this, h3, h4, h5]; simp
  rw [hbefore]
  have hidx : rootIdx num r < 2 ^ (R + 1 - r) := by
    unfold rootIdx
    have : num / 2 ^ (r + 1) < 2 ^ (R - r) := by
      rw [Nat.div_lt_iff_lt_mul (by positivity), ← pow_add, show R - r + (r + 1) = R + 1 by omega]
      exact hnum
    rw [show R + 1 - r = R - r + 1 by omega, Nat.pow_succ 2 (R - r)]
    omega
  rw [Nat.and_or_distrib_right, and_mask, and_mask, mod_64_mod (by omega)]
  rw [sub_one_mul_mod (R + 1) r (R + 1 - r) (by omega) (by omega)]
  rw [Nat.mod_eq_of_lt (lt_of_lt_of_le hidx (Nat.pow_le_pow_right (by omega) (by omega)))]
  rw [Nat.or_comm, ← rowStart_eq R r (by omega), rowStart_mul R r (by omega),
    ← Nat.two_pow_add_eq_or_of_lt hidx, ← rowStart_mul R r (by omega)]
  rfl

theorem rootPosition_eq {n r : Nat} (hn : n ≤ 2 ^ 62) (hr : r ≤ St.numRows n) :
    St.rootPosition n r = .ok (posOf (St.numRows n) r (rootIdx n r)) :=
  rootPositionIn_eq (numRows_le_62 hn) hr (le_two_pow_numRows (by omega))

end Utreexo
