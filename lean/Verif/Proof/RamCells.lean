import Verif.Proof.Dirt
import Verif.Proof.PosMap
import Verif.Model.RamForest

/-! # The hashes stored by `RamForest` -/

set_option linter.unusedSectionVars false

namespace Utreexo
open Spec Equiv

variable {H : Type} [DecidableEq H] [HashOps H]

/-- The hash stored at row `r`, index `i`. -/
def cell (ext : List (List H)) (r i : ℕ) : Option H := (ext[r]?).bind fun row => row[i]?

/-- The rows hold the hashes `c` of a forest with `n` leaves. -/
structure Cells (ext : List (List H)) (n : ℕ) (c : ℕ → ℕ → H) : Prop where
  rows : St.numRows n < ext.length
  get : ∀ r i, i < n / 2 ^ r → cell ext r i = some (c r i)

theorem cell_some {ext : List (List H)} {r i : ℕ} {h : H} (hc : cell ext r i = some h) :
    ∃ row, ext[r]? = some row ∧ row[i]? = some h := by
  unfold cell at hc
  cases hr : ext[r]? with
  | none => rw [hr] at hc; simp at hc
  | some row => rw [hr] at hc; exact ⟨row, rfl, hc⟩

theorem cell_set {ext : List (List H)} {r : ℕ} (hr : r < ext.length) (row : List H) (q i : ℕ) :
    cell (ext.set r row) q i = if q = r then row[i]? else cell ext q i := by
  unfold cell
  rw [List.getElem?_set]
  by_cases h : r = q
  · subst h; simp [hr]
  · rw [if_neg h, if_neg (Ne.symm h)]

theorem lt_of_get {α : Type} {l : List α} {i : ℕ} {x : α} (h : l[i]? = some x) : i < l.length := by
  by_contra hc
  rw [List.getElem?_eq_none (by omega)] at h
  simp at h

theorem row_le {n r i : ℕ} (hn : n ≤ 2 ^ 62) (h : i < n / 2 ^ r) : r ≤ St.numRows n ∧ i < 2 ^ (St.numRows n - r) :=
  inForest_lt (le_two_pow_numRows (by omega)) (inForest_iff.2 h)

theorem posOf_lt64 {n r i : ℕ} (hn : n ≤ 2 ^ 62) (hr : r ≤ St.numRows n + 1) (hi : i < 2 ^ (St.numRows n - r)) :
    posOf (St.numRows n) r i < 2 ^ 64 := by
  have hR := numRows_le_62 hn
  have h1 : (2:ℕ) ^ (St.numRows n - r) ≤ 2 ^ 62 := Nat.pow_le_pow_right (by omega) (by omega)
  have h2 : rowStart (St.numRows n) r ≤ 2 ^ (St.numRows n + 1) := by
    rw [rowStart_eq _ _ hr]; exact Nat.sub_le _ _
  have h3 : (2:ℕ) ^ (St.numRows n + 1) ≤ 2 ^ 63 := Nat.pow_le_pow_right (by omega) (by omega)
  unfold posOf; omega

theorem posOf_sub64 {n r i : ℕ} (hn : n ≤ 2 ^ 62) (hr : r ≤ St.numRows n + 1) (hi : i < 2 ^ (St.numRows n - r)) :
    sub64 (posOf (St.numRows n) r i) (rowStart (St.numRows n) r) = i := by
  rw [sub64_ok (by unfold posOf; omega) (posOf_lt64 hn hr hi), posOf_sub]

namespace Ram

theorem readIn_ok {s : RamForest H} {cs r i : ℕ} {h : H} (hcs : cs ≤ 2 ^ 62) (hr : r ≤ St.numRows cs + 1)
    (hi : i < 2 ^ (St.numRows cs - r)) (hc : cell s.ext r i = some h) :
    readIn s cs (posOf (St.numRows cs) r i) = .ok h := by
  have hR := numRows_le_62 hcs
  obtain ⟨row, h1, h2⟩ := cell_some hc
  unfold readIn
  rw [detectRow_posOf (by omega) hr hi, ok_bind]
  by_cases h0 : St.numRows cs + 1 - r < 64
  · rw [rowOffset_posOf (by omega) hr h0 hi, ok_bind, cassert_true (by simpa using lt_of_get h1), ok_bind,
      vecAt_ok h1, ok_bind, posOf_sub64 hcs hr hi, cassert_true (by simpa using lt_of_get h2), ok_bind,
      vecAt_ok h2]
  · omega

theorem read_ok {s : RamForest H} {n : ℕ} {c : ℕ → ℕ → H} (hs : s.numLeaves = n) (hn : n ≤ 2 ^ 62)
    (hc : Cells s.ext n c) {r i : ℕ} (hi : i < n / 2 ^ r) :
    read s (posOf (St.numRows n) r i) = .ok (c r i) := by
  obtain ⟨h1, h2⟩ := row_le hn hi
  unfold read
  rw [hs]
  exact readIn_ok hn (by omega) h2 (hc.get r i hi)

theorem read_leaf {s : RamForest H} {n : ℕ} {c : ℕ → ℕ → H} (hs : s.numLeaves = n) (hn : n ≤ 2 ^ 62)
    (hc : Cells s.ext n c) {i : ℕ} (hi : i < n) : read s i = .ok (c 0 i) := by
  have := read_ok hs hn hc (r := 0) (i := i) (by simpa using hi)
  rwa [posOf_zero] at this

theorem readLeafRange_ok {s : RamForest H} {n : ℕ} {c : ℕ → ℕ → H} (hs : s.numLeaves = n) (hn : n ≤ 2 ^ 62)
    (hc : Cells s.ext n c) : ∀ (len a : ℕ), a + len ≤ n →
    readLeafRange s a len = .ok ((List.range' a len).map (c 0)) := by
  intro len
  induction len with
  | zero => intro a _; rfl
  | succ len ih =>
    intro a ha
    rw [readLeafRange, read_leaf hs hn hc (by omega), ok_bind, ih (a + 1) (by omega), ok_bind]
    rfl

/-! ## Swapping -/

theorem vecSet_ok {α : Type} {v : List α} {i : ℕ} {x : α} (h : i < v.length) : vecSet v i x = .ok (v.set i x) := by
  unfold vecSet; rw [if_pos h]

theorem swapIdx_succ {a b k : ℕ} (hab : a + (k + 1) ≤ b ∨ b + (k + 1) ≤ a) (x : ℕ) :
    PosMap.swapIdx a b (k + 1) x =
      if x = a then b else if x = b then a else PosMap.swapIdx (a + 1) (b + 1) k x := by
  unfold PosMap.swapIdx; split_ifs <;> omega

theorem swapIdx_succ_fix {a b k : ℕ} (hab : a + (k + 1) ≤ b ∨ b + (k + 1) ≤ a) (x : ℕ) :
    (x = a → PosMap.swapIdx (a + 1) (b + 1) k x = a) ∧ (x = b → PosMap.swapIdx (a + 1) (b + 1) k x = b) ∧
    (x ≠ a → x ≠ b → PosMap.swapIdx (a + 1) (b + 1) k x ≠ a ∧ PosMap.swapIdx (a + 1) (b + 1) k x ≠ b) := by
  unfold PosMap.swapIdx; split_ifs <;> omega

theorem swapLoop_ok : ∀ (k a b : ℕ) (row : List H), a + k ≤ row.length → b + k ≤ row.length →
    (a + k ≤ b ∨ b + k ≤ a) → ∃ row', swapLoop row a b k = .ok row' ∧ row'.length = row.length ∧
      ∀ x, row'[x]? = row[PosMap.swapIdx a b k x]? := by
  intro k
  induction k with
  | zero =>
    intro a b row _ _ _
    refine ⟨row, rfl, rfl, fun x => ?_⟩
    unfold PosMap.swapIdx
    rw [if_neg (by omega), if_neg (by omega)]
  | succ k ih =>
    intro a b row ha hb hab
    have hga : row[a]? = some row[a] := List.getElem?_eq_getElem (by omega)
    have hgb : row[b]? = some row[b] := List.getElem?_eq_getElem (by omega)
    obtain ⟨row', h1, h2, h3⟩ := ih (a + 1) (b + 1) ((row.set a row[b]).set b row[a]) (by simp; omega)
      (by simp; omega) (by omega)
    refine ⟨row', ?_, by rw [h2]; simp, ?_⟩
    · rw [swapLoop, vecGet_ok hga, ok_bind, vecGet_ok hgb, ok_bind, vecSet_ok (by omega), ok_bind,
        vecSet_ok (by simp; omega), ok_bind, h1]
    · intro x
      obtain ⟨f1, f2, f3⟩ := swapIdx_succ_fix hab x
      have hne : a ≠ b := by omega
      rw [h3, swapIdx_succ hab, List.getElem?_set, List.getElem?_set]
      simp only [List.length_set]
      by_cases hxa : x = a
      · rw [f1 hxa, if_neg hne.symm, if_pos rfl, if_pos (by omega), if_pos hxa, hgb]
      · by_cases hxb : x = b
        · rw [f2 hxb, if_pos rfl, if_pos (by omega), if_neg hxa, if_pos hxb, hga]
        · obtain ⟨g1, g2⟩ := f3 hxa hxb
          rw [if_neg g2.symm, if_neg g1.symm, if_neg hxa, if_neg hxb]

/-- The hashes after exchanging two ranges of row `r`. -/
def rangeCells (r a b len : ℕ) (c : ℕ → ℕ → H) : ℕ → ℕ → H := fun q x =>
  if q = r then c q (PosMap.swapIdx a b len x) else c q x

theorem swapRange_ok {s : RamForest H} {n : ℕ} {c : ℕ → ℕ → H} (hs : s.numLeaves = n) (hn : n ≤ 2 ^ 62)
    (hc : Cells s.ext n c) {r a b len : ℕ} (hlen : 0 < len) (ha : a + len ≤ n / 2 ^ r)
    (hb : b + len ≤ n / 2 ^ r) (hab : a + len ≤ b ∨ b + len ≤ a) :
    ∃ ext', swapRange s (posOf (St.numRows n) r a) (posOf (St.numRows n) r b) len = .ok { s with ext := ext' } ∧
      ext'.length = s.ext.length ∧ Cells ext' n (rangeCells r a b len c) := by
  have hR := numRows_le_62 hn
  obtain ⟨r1, i1⟩ := row_le hn (show a < n / 2 ^ r by omega)
  obtain ⟨-, i2⟩ := row_le hn (show b < n / 2 ^ r by omega)
  obtain ⟨row, hrow, -⟩ := cell_some (hc.get r a (by omega))
  have hall : ∀ x, x < n / 2 ^ r → row[x]? = some (c r x) := by
    intro x hx
    have := hc.get r x hx
    unfold cell at this
    rw [hrow] at this; exact this
  have hla : a + len ≤ row.length := by
    have := lt_of_get (hall (a + len - 1) (by omega)); omega
  have hlb : b + len ≤ row.length := by
    have := lt_of_get (hall (b + len - 1) (by omega)); omega
  obtain ⟨row', h1, h2, h3⟩ := swapLoop_ok len a b row hla hlb hab
  refine ⟨s.ext.set r row', ?_, by simp, ?_⟩
  · unfold swapRange
    rw [hs, detectRow_posOf (by omega) (by omega) i1, ok_bind, rowOffset_posOf (by omega) (by omega) (by omega) i1,
      ok_bind, rowOffset_posOf (by omega) (by omega) (by omega) i2, ok_bind, vecAt_ok hrow, ok_bind,
      posOf_sub64 hn (by omega) i1, posOf_sub64 hn (by omega) i2, h1, ok_bind]
    rfl
  · refine ⟨by simpa using hc.rows, ?_⟩
    intro q x hx
    rw [cell_set (lt_of_get hrow)]
    simp only [rangeCells]
    by_cases hq : q = r
    · subst hq
      rw [if_pos rfl, if_pos rfl, h3, hall]
      exact (PosMap.swapIdx_lt ha hb).2 hx
    · rw [if_neg hq, if_neg hq]
      exact hc.get q x hx

theorem swapIdx_block (k i j x : ℕ) : PosMap.swapIdx (i * 2 ^ k) (j * 2 ^ k) (2 ^ k) x = up k (swap i j) x := by
  have := congrFun (swapRanges_eq (α := ℕ) k i j id) x
  rw [PosMap.swapRanges_swapIdx, swapBlocks_eq] at this
  exact this

theorem block_bound {i n k r : ℕ} (h : i < n / 2 ^ (r + k)) : i * 2 ^ k + 2 ^ k ≤ n / 2 ^ r := by
  have h1 : (i + 1) * 2 ^ k ≤ n / 2 ^ r := by
    rw [← Nat.le_div_iff_mul_le (by positivity), Nat.div_div_eq_div_mul, ← pow_add]; omega
  rw [add_mul, one_mul] at h1; exact h1

theorem block_disj {i j k : ℕ} (h : i ≠ j) : i * 2 ^ k + 2 ^ k ≤ j * 2 ^ k ∨ j * 2 ^ k + 2 ^ k ≤ i * 2 ^ k := by
  rcases Nat.lt_or_gt_of_ne h with h | h
  · left; calc i * 2 ^ k + 2 ^ k = (i + 1) * 2 ^ k := by ring
      _ ≤ j * 2 ^ k := Nat.mul_le_mul_right _ h
  · right; calc j * 2 ^ k + 2 ^ k = (j + 1) * 2 ^ k := by ring
      _ ≤ i * 2 ^ k := Nat.mul_le_mul_right _ h

/-- The hashes after moving the rows `q ..  r` of two subtrees. -/
def partCells (r q : ℕ) (P : Perm ℕ) (c : ℕ → ℕ → H) : ℕ → ℕ → H := fun s x =>
  if q ≤ s ∧ s ≤ r then c s (up (r - s) P x) else c s x

theorem swapTreeLoop_ok {n : ℕ} (hn : n ≤ 2 ^ 62) {r i j : ℕ} (hi : i < n / 2 ^ r) (hj : j < n / 2 ^ r)
    (hij : i ≠ j) : ∀ (k q fuel : ℕ) (s : RamForest H) (c : ℕ → ℕ → H), q + k = r → k + 1 < fuel →
    s.numLeaves = n → Cells s.ext n c →
    ∃ ext', swapTreeLoop s (posOf (St.numRows n) q (i * 2 ^ k)) (posOf (St.numRows n) q (j * 2 ^ k)) fuel (2 ^ k) =
      .ok ({ s with ext := ext' }, posOf (St.numRows n) (r + 1) (j / 2)) ∧
      ext'.length = s.ext.length ∧ Cells ext' n (partCells r q (swap i j) c) := by
  have hR := numRows_le_62 hn
  intro k
  induction k with
  | zero =>
    intro q fuel s c hq hf hs hc
    obtain ⟨f, rfl⟩ : ∃ f, fuel = f + 2 := ⟨fuel - 2, by omega⟩
    have hq : q = r := by omega
    subst hq
    rw [pow_zero, mul_one, mul_one]
    obtain ⟨r1, i1⟩ := row_le hn hi
    obtain ⟨-, i2⟩ := row_le hn hj
    obtain ⟨ext', h1, h2, h3⟩ := swapRange_ok hs hn hc (r := q) (a := i) (b := j) (len := 1) (by omega)
      (by omega) (by omega) (by omega)
    refine ⟨ext', ?_, h2, ?_⟩
    · rw [swapTreeLoop, if_neg (by omega), h1, ok_bind, hs, parent_posOf (by omega) r1 (lt_of_row i1), ok_bind,
        parent_posOf (by omega) r1 (lt_of_row i2), ok_bind, swapTreeLoop, if_pos (by simp)]
    · refine ⟨h3.rows, ?_⟩
      intro p x hx
      rw [h3.get p x hx]
      simp only [rangeCells, partCells]
      by_cases hp : p = q
      · subst hp
        have := swapIdx_block 0 i j x
        simp only [pow_zero, mul_one] at this
        rw [if_pos rfl, if_pos (by omega), Nat.sub_self, this]
      · rw [if_neg hp, if_neg (by omega)]
  | succ k ih =>
    intro q fuel s c hq hf hs hc
    obtain ⟨f, rfl⟩ : ∃ f, fuel = f + 1 := ⟨fuel - 1, by omega⟩
    have hi' : i < n / 2 ^ (q + (k + 1)) := by rw [hq]; exact hi
    have hj' : j < n / 2 ^ (q + (k + 1)) := by rw [hq]; exact hj
    have hb1 := block_bound hi'
    have hb2 := block_bound hj'
    have hpos : 0 < 2 ^ (k + 1) := by positivity
    obtain ⟨r1, i1⟩ := row_le hn (show i * 2 ^ (k + 1) < n / 2 ^ q by omega)
    obtain ⟨-, i2⟩ := row_le hn (show j * 2 ^ (k + 1) < n / 2 ^ q by omega)
    obtain ⟨ext1, h1, h2, h3⟩ := swapRange_ok hs hn hc (r := q) hpos hb1 hb2 (block_disj hij)
    obtain ⟨ext', g1, g2, g3⟩ := ih (q + 1) f { s with ext := ext1 } _ (by omega) (by omega) hs h3
    have half : ∀ a : ℕ, a * 2 ^ (k + 1) / 2 = a * 2 ^ k := by
      intro a; rw [pow_succ, ← mul_assoc, Nat.mul_div_cancel _ (by omega)]
    refine ⟨ext', ?_, g2.trans h2, ?_⟩
    · rw [swapTreeLoop, if_neg (by omega), h1, ok_bind, hs, parent_posOf (by omega) r1 (lt_of_row i1), ok_bind,
        parent_posOf (by omega) r1 (lt_of_row i2), ok_bind, half, half,
        show 2 ^ (k + 1) >>> 1 = 2 ^ k by rw [Nat.shiftRight_eq_div_pow, pow_succ]; simp]
      simp only [hs] at g1
      exact g1
    · refine ⟨g3.rows, ?_⟩
      intro p x hx
      rw [g3.get p x hx]
      simp only [rangeCells, partCells]
      by_cases hp : p = q
      · subst hp
        rw [if_neg (by omega), if_pos rfl, if_pos (by omega), swapIdx_block, show r - p = k + 1 by omega]
      · by_cases hp2 : q + 1 ≤ p ∧ p ≤ r
        · rw [if_pos hp2, if_neg hp, if_pos (by omega)]
        · rw [if_neg hp2, if_neg hp, if_neg (by omega)]

/-- The node object of the row `r`, index `i` before its hash is known. -/
def dnode (n r i : ℕ) : RNode H := { hash := none, numLeaves := n, pos := posOf (St.numRows n) r i }

theorem swapSubTrees_ok {s : RamForest H} {n : ℕ} {c : ℕ → ℕ → H} (hs : s.numLeaves = n) (hn : n ≤ 2 ^ 62)
    (hc : Cells s.ext n c) {r i j : ℕ} (hr : r < 31) (hi : i < n / 2 ^ r) (hj : j < n / 2 ^ r) (hij : i ≠ j) :
    ∃ ext', swapSubTrees s (posOf (St.numRows n) r i) (posOf (St.numRows n) r j) =
      .ok (some (dnode n (r + 1) (j / 2)), { s with ext := ext' }) ∧
      ext'.length = s.ext.length ∧ Cells ext' n (permCells r (swap i j) c) := by
  subst hs
  have hR := numRows_le_62 hn
  obtain ⟨r1, i1⟩ := row_le hn hi
  obtain ⟨-, i2⟩ := row_le hn hj
  have e1 := leftDescendant_posOf (n := s.numLeaves) (by omega) (r := 0) (d := r) (i := i) (by omega)
    (by rw [Nat.zero_add]; exact i1)
  have e2 := leftDescendant_posOf (n := s.numLeaves) (by omega) (r := 0) (d := r) (i := j) (by omega)
    (by rw [Nat.zero_add]; exact i2)
  rw [Nat.zero_add] at e1 e2
  obtain ⟨ext', h1, h2, h3⟩ := swapTreeLoop_ok hn hi hj hij r 0 66 s c (by omega) (by omega) rfl hc
  refine ⟨ext', ?_, h2, ?_⟩
  · unfold swapSubTrees
    rw [detectRow_posOf (by omega) (by omega) i1, ok_bind, detectRow_posOf (by omega) (by omega) i2, ok_bind,
      cassert_true (by simp), ok_bind, e1, ok_bind, e2, ok_bind]
    unfold shlInt
    rw [if_pos hr, ok_bind, Nat.shiftLeft_eq, one_mul, h1, ok_bind]
    rfl
  · refine ⟨h3.rows, ?_⟩
    intro p x hx
    rw [h3.get p x hx]
    simp only [partCells, permCells]
    simp

/-! ## Invariant while removing -/

/-- The state holds the hashes `c` of `n` leaves and the position map is exact. -/
structure Holds (s : RamForest H) (n : ℕ) (c : ℕ → ℕ → H) : Prop where
  num : s.numLeaves = n
  cells : Cells s.ext n c
  pos : PosMap.Exact s.posmap (c 0) n

theorem updatePosRange_ok {s : RamForest H} {n : ℕ} {c : ℕ → ℕ → H} (h : Holds s n c) (hn : n ≤ 2 ^ 62)
    {a b len : ℕ} (hlen : 0 < len) (ha : a + len ≤ n) (hb : b + len ≤ n) (hab : a + len ≤ b ∨ b + len ≤ a) :
    ∃ m, Acc.updatePosRange vt s a b len = .ok { s with posmap := m } ∧
      PosMap.Exact m (swapRanges a b len (c 0)) n := by
  refine ⟨_, ?_, h.pos.swap (by omega) ha hb hab⟩
  unfold Acc.updatePosRange
  rw [if_neg (by rw [h.pos.len]; omega)]
  simp only [vt]
  rw [readLeafRange_ok h.num hn h.cells _ _ ha, ok_bind, readLeafRange_ok h.num hn h.cells _ _ hb, ok_bind]
  rfl

theorem updatePosSubtree_ok {s : RamForest H} {n : ℕ} {c : ℕ → ℕ → H} (h : Holds s n c) (hn : n ≤ 2 ^ 62)
    {r i j : ℕ} (hi : i < n / 2 ^ r) (hj : j < n / 2 ^ r) (hij : i ≠ j) :
    ∃ m, Acc.updatePosSubtree vt s (posOf (St.numRows n) r i) (posOf (St.numRows n) r j) =
      .ok { s with posmap := m } ∧ PosMap.Exact m (c 0 ∘ up r (swap i j)) n := by
  obtain rfl := h.num
  have hR := numRows_le_62 hn
  obtain ⟨r1, i1⟩ := row_le hn hi
  obtain ⟨-, i2⟩ := row_le hn hj
  have e1 := leftDescendant_posOf (n := s.numLeaves) (by omega) (r := 0) (d := r) (i := i) (by omega)
    (by rw [Nat.zero_add]; exact i1)
  have e2 := leftDescendant_posOf (n := s.numLeaves) (by omega) (r := 0) (d := r) (i := j) (by omega)
    (by rw [Nat.zero_add]; exact i2)
  rw [Nat.zero_add] at e1 e2
  have b1 := block_bound (r := 0) (k := r) (by rw [Nat.zero_add]; exact hi)
  have b2 := block_bound (r := 0) (k := r) (by rw [Nat.zero_add]; exact hj)
  rw [pow_zero, Nat.div_one] at b1 b2
  obtain ⟨m, h1, h2⟩ := updatePosRange_ok h hn (a := i * 2 ^ r) (b := j * 2 ^ r) (len := 2 ^ r) (by positivity)
    b1 b2 (block_disj hij)
  refine ⟨m, ?_, ?_⟩
  · unfold Acc.updatePosSubtree
    have h62 : (2:ℕ) ^ r ≤ 2 ^ 62 := Nat.pow_le_pow_right (by omega) (by omega)
    rw [detectRow_posOf (by omega) (by omega) i1, ok_bind, e1, ok_bind, e2, ok_bind,
      shl64_ok (by omega), ok_bind, one_mul, Nat.mod_eq_of_lt (by omega), posOf_zero, posOf_zero, h1]
  · rw [swapRanges_eq, swapBlocks_eq] at h2; exact h2

theorem permCells_mul (r : ℕ) (P Q : Perm ℕ) (c : ℕ → ℕ → H) :
    permCells r Q (permCells r P c) = permCells r (P * Q) c := by
  funext s x
  unfold permCells
  split
  · rw [up_mul]; rfl
  · rfl

/-- The roots and the number of rows of data stay. -/
structure Keep (s s' : RamForest H) : Prop where
  roots : s'.roots = s.roots
  rows : s'.ext.length = s.ext.length

theorem Keep.trans {a b c : RamForest H} (h1 : Keep b c) (h2 : Keep a b) : Keep a c :=
  ⟨h1.roots.trans h2.roots, h1.rows.trans h2.rows⟩

theorem runSwaps_ok {n : ℕ} (hn : n ≤ 2 ^ 62) {r : ℕ} : ∀ (ops : List (ℕ × ℕ × Bool)) (_ : ops ≠ [] → r < 31)
    (s : RamForest H) (c : ℕ → ℕ → H) (dirty : List (Option (RNode H))),
    (∀ o ∈ ops, o.1 < n / 2 ^ r ∧ o.2.1 < n / 2 ^ r ∧ o.1 ≠ o.2.1) → Holds s n c →
    ∃ s', Acc.runSwaps vt (posOps (St.numRows n) r ops) s dirty =
      .ok (s', dirty ++ ((ops.filter fun o => !o.2.2).map fun o => some (dnode n (r + 1) (o.2.1 / 2)))) ∧
      Holds s' n (permCells r (seqPerm (ops.map fun o => (o.1, o.2.1))).symm c) ∧ Keep s s' := by
  intro ops
  induction ops with
  | nil =>
    intro _ s c dirty _ h
    refine ⟨s, by simp [posOps, Acc.runSwaps], ?_, ⟨rfl, rfl⟩⟩
    have : permCells r (seqPerm ([].map fun o : ℕ × ℕ × Bool => (o.1, o.2.1))).symm c = c := by
      funext q x
      unfold permCells
      have : up (r - q) (1 : Perm ℕ).symm x = x := by
        rw [show ((1 : Perm ℕ).symm) = 1 from rfl, up_one]; rfl
      simp [this]
    rw [this]; exact h
  | cons o ops ih =>
    intro hr' s c dirty hb h
    have hr := hr' (by simp)
    obtain ⟨b1, b2, b3⟩ := hb o (by simp)
    obtain ⟨m, u1, u2⟩ := updatePosSubtree_ok h hn b1 b2 b3
    obtain ⟨ext', w1, w2, w3⟩ := swapSubTrees_ok (s := { s with posmap := m }) h.num hn h.cells hr b1 b2 b3
    have hH : Holds { s with posmap := m, ext := ext' } n (permCells r (swap o.1 o.2.1) c) := by
      refine ⟨h.num, w3, ?_⟩
      have : permCells r (swap o.1 o.2.1) c 0 = c 0 ∘ up r (swap o.1 o.2.1) := by
        funext x; simp [permCells]
      rw [this]; exact u2
    obtain ⟨s', g1, g2, g3⟩ := ih (fun _ => hr) { s with posmap := m, ext := ext' } _
      (if !o.2.2 then dirty ++ [some (dnode n (r + 1) (o.2.1 / 2))] else dirty)
      (fun p hp => hb p (by simp [hp])) hH
    refine ⟨s', ?_, ?_, ⟨g3.roots, g3.rows.trans w2⟩⟩
    · unfold posOps at g1 ⊢
      rw [List.map_cons, Acc.runSwaps]
      simp only
      rw [u1, ok_bind]
      show (swapSubTrees _ _ _ >>= _) = _
      rw [w1, ok_bind]
      simp only
      rw [g1]
      congr 2
      cases hcol : o.2.2 <;> simp [hcol]
    · rw [permCells_mul] at g2
      simp only [List.map_cons, seqPerm]
      have : (seqPerm (ops.map fun o => (o.1, o.2.1)) * swap o.1 o.2.1).symm =
          swap o.1 o.2.1 * (seqPerm (ops.map fun o => (o.1, o.2.1))).symm := by
        ext x; rfl
      rw [this]; exact g2

end Ram
end Utreexo
