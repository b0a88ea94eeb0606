import Verif.Proof.RamAdd
import Verif.Props.Transform

/-! # `RamForest::Modify` and `RamForest::Undo` -/

set_option linter.unusedSectionVars false

namespace Utreexo
open Spec Equiv

variable {H : Type} [DecidableEq H] [HashOps H]

namespace Ram

/-! ## Row 0 alone -/

/-- Row 0 holds the leaves `v`. -/
def Leaves (ext : List (List H)) (n : ℕ) (v : ℕ → H) : Prop := ∀ i, i < n → cell ext 0 i = some (v i)

theorem read_leaf' {s : RamForest H} {n : ℕ} {v : ℕ → H} (hs : s.numLeaves = n) (hn : n ≤ 2 ^ 62)
    (hv : Leaves s.ext n v) {i : ℕ} (hi : i < n) : read s i = .ok (v i) := by
  obtain ⟨h1, h2⟩ := row_le hn (show i < n / 2 ^ 0 by simpa using hi)
  have := readIn_ok (s := s) (cs := n) (r := 0) (i := i) hn (by omega) h2 (hv i hi)
  unfold read
  rw [hs]
  rwa [posOf_zero] at this

theorem readLeafRange_ok' {s : RamForest H} {n : ℕ} {v : ℕ → H} (hs : s.numLeaves = n) (hn : n ≤ 2 ^ 62)
    (hv : Leaves s.ext n v) : ∀ (len a : ℕ), a + len ≤ n →
    readLeafRange s a len = .ok ((List.range' a len).map v) := by
  intro len
  induction len with
  | zero => intro a _; rfl
  | succ len ih =>
    intro a ha
    rw [readLeafRange, read_leaf' hs hn hv (by omega), ok_bind, ih (a + 1) (by omega), ok_bind]
    rfl

theorem swapRange_ok' {s : RamForest H} {n : ℕ} {v : ℕ → H} (hs : s.numLeaves = n) (hn : n ≤ 2 ^ 62)
    (hv : Leaves s.ext n v) {a b len : ℕ} (hlen : 0 < len) (ha : a + len ≤ n)
    (hb : b + len ≤ n) (hab : a + len ≤ b ∨ b + len ≤ a) :
    ∃ ext', swapRange s a b len = .ok { s with ext := ext' } ∧
      ext'.length = s.ext.length ∧ Leaves ext' n (swapRanges a b len v) ∧
      ∀ q, q ≠ 0 → ext'[q]? = s.ext[q]? := by
  have hR := numRows_le_62 hn
  obtain ⟨-, i1⟩ := row_le hn (show a < n / 2 ^ 0 by simp; omega)
  obtain ⟨-, i2⟩ := row_le hn (show b < n / 2 ^ 0 by simp; omega)
  obtain ⟨row, hrow, -⟩ := cell_some (hv a (by omega))
  have hall : ∀ x, x < n → row[x]? = some (v x) := by
    intro x hx
    have := hv x hx
    unfold cell at this
    rw [hrow] at this; exact this
  have hla : a + len ≤ row.length := by
    have := lt_of_get (hall (a + len - 1) (by omega)); omega
  have hlb : b + len ≤ row.length := by
    have := lt_of_get (hall (b + len - 1) (by omega)); omega
  obtain ⟨row', h1, h2, h3⟩ := swapLoop_ok len a b row hla hlb hab
  refine ⟨s.ext.set 0 row', ?_, by simp, ?_, ?_⟩
  · unfold swapRange
    have d1 := detectRow_posOf (n := n) (r := 0) (i := a) (by omega) (by omega) i1
    have o1 := rowOffset_posOf (n := n) (r := 0) (i := a) (by omega) (by omega) (by omega) i1
    have o2 := rowOffset_posOf (n := n) (r := 0) (i := b) (by omega) (by omega) (by omega) i2
    have s1 := posOf_sub64 (n := n) (r := 0) (i := a) hn (by omega) i1
    have s2 := posOf_sub64 (n := n) (r := 0) (i := b) hn (by omega) i2
    rw [posOf_zero] at d1 o1 o2 s1 s2
    rw [hs, d1, ok_bind, o1, ok_bind, o2, ok_bind, vecAt_ok hrow, ok_bind, s1, s2, h1, ok_bind]
    rfl
  · intro x hx
    rw [cell_set (lt_of_get hrow), if_pos rfl, h3, hall _ ((PosMap.swapIdx_lt ha hb).2 hx), PosMap.swapRanges_swapIdx]
  · intro q hq
    rw [List.getElem?_set, if_neg (by omega)]

/-! ## The undo data -/

theorem undoHashes_ok {s : RamForest H} {n : ℕ} {v : ℕ → H} (hn : n ≤ 2 ^ 62) (hv : Leaves s.ext n v) :
    ∀ (k pos : ℕ), pos + k ≤ n → undoHashes s n pos k = .ok (some ((List.range' pos k).map v)) := by
  intro k
  induction k with
  | zero => intro pos _; rfl
  | succ k ih =>
    intro pos hp
    obtain ⟨row0, h1, h2⟩ := cell_some (hv pos (by omega))
    obtain ⟨-, i1⟩ := row_le hn (show pos < n / 2 ^ 0 by simp; omega)
    have hr := readIn_ok (s := s) (cs := n) (r := 0) (i := pos) hn (by omega) i1 (hv pos (by omega))
    rw [posOf_zero] at hr
    unfold undoHashes
    cases he : s.ext with
    | nil => rw [he] at h1; simp at h1
    | cons r0 rest =>
      rw [he] at h1
      simp only [List.getElem?_cons_zero, Option.some.injEq] at h1
      subst h1
      simp only
      have := lt_of_get h2
      rw [if_neg (by omega), hr, ok_bind, ih (pos + 1) (by omega), ok_bind]
      rfl

/-- The undo batch recorded when the targets `D` are removed from the leaves `f 0, ..., f (n-1)`. -/
def undoOf (n : ℕ) (f : ℕ → H) (D : List ℕ) (numAdds : ℕ) : UndoBatch H :=
  { numAdds := numAdds, positions := D,
    hashes := (List.range' (n - D.length) D.length).map
      (f ∘ (sg n (n - D.length) D (St.numRows n) 0).symm) }

theorem modify_ok {s : RamForest H} {n : ℕ} {f : ℕ → H} {D : List ℕ} {leaves : List (Leaf H)} (h : Inv s n f)
    (hn62 : n ≤ 2 ^ 62) (hn : Calm n D) (hs : D.Pairwise (· < ·)) (hb : ∀ i ∈ D, i < n) (hN : n - D.length + leaves.length ≤ 2 ^ 62)
    (hnd : (leaves.map Prod.fst).Nodup)
    (hfresh : ∀ x, x < n → x ∉ D → ∀ l ∈ leaves, f x ≠ l.1) :
    ∃ s', modify s leaves D = .ok (true, some (undoOf n f D leaves.length), s') ∧
      Inv s' (n - D.length + leaves.length)
        (addLeaves (f ∘ (sg n (n - D.length) D (St.numRows n) 0).symm) (n - D.length) (leaves.map Prod.fst)) ∧
      s.ext.length ≤ s'.ext.length := by
  have hlen : D.length ≤ n := by
    have := sorted_length_add_le D 0 n hs (fun x hx => ⟨Nat.zero_le _, hb x hx⟩) (Nat.zero_le _)
    omega
  have hi := rowInv hs hb (n' := n - D.length) (by omega)
  have hS := sg_sinks hi (le_two_pow_numRows (by omega)) (r := 0) (Nat.zero_le _)
  obtain ⟨s1, a1, a2, a3, a4⟩ := remove_ok h hn62 hn hs hb
  obtain ⟨s2, b1, b2, b3⟩ := add_ok (leaves := leaves) a2 hN hnd (by
    intro x hx l hl
    have hx1 := hS.mem ((sg n (n - D.length) D (St.numRows n) 0).symm x)
    have hx2 := hS.fix ((sg n (n - D.length) D (St.numRows n) 0).symm x)
    rw [Equiv.apply_symm_apply] at hx1 hx2
    simp only [Dn, pow_zero, Nat.div_one] at hx1 hx2
    apply hfresh
    · by_contra hc
      have := hx2 (by omega)
      omega
    · rw [hx1]; omega
    · exact hl)
  refine ⟨s2, ?_, b2, by omega⟩
  unfold modify
  rw [a1, ok_bind]
  simp only [Bool.not_true, Bool.false_eq_true, if_false]
  have hu : buildUndoBatch s1 leaves.length D = .ok (some (undoOf n f D leaves.length)) := by
    unfold buildUndoBatch
    rw [a2.num, wrap64_ok (by omega), show n - D.length + D.length = n by omega,
      undoHashes_ok (s := s1) hn62 a4 _ _ (by omega), ok_bind]
    rfl
  rw [hu, ok_bind]
  simp only
  rw [b1, ok_bind]
  rfl

/-! ## Erasing the additions and placing the deleted leaves -/

theorem undoErase_ok {s : RamForest H} {n n' : ℕ} {v : ℕ → H} (hs : s.numLeaves = n) (hn : n ≤ 2 ^ 62)
    (hv : Leaves s.ext n v) : ∀ (k pos : ℕ) (m : PosMap H), n' ≤ pos → pos + k = n → Upto m v n' pos n →
    ∃ m', undoErase s pos k m = .ok (m', true) ∧ Upto m' v n' n n := by
  intro k
  induction k with
  | zero =>
    intro pos m _ hk u
    have : pos = n := by omega
    subst this
    exact ⟨m, rfl, u⟩
  | succ k ih =>
    intro pos m h1 hk u
    obtain ⟨m', g1, g2⟩ := ih (pos + 1) _ (by omega) (by omega) (u.erase h1 (by omega))
    refine ⟨m', ?_, g2⟩
    rw [undoErase, read_leaf' hs hn hv (by omega), ok_bind,
      (u.find (v pos) pos).2 ⟨by omega, .inr le_rfl, rfl⟩]
    exact g1

theorem undoPlace_ok {n0 n : ℕ} {v : ℕ → H} (hn : n ≤ 2 ^ 62)
    (hinj : ∀ x y, x < n → y < n → v x = v y → x = y) :
    ∀ (k i : ℕ) (row : List H) (m : PosMap H), n0 + i + k = n → row.length = n →
    (∀ x, x < n0 + i → row[x]? = some (v x)) → PosMap.Exact m v (n0 + i) →
    ∃ row' m', undoPlace n0 ((List.range' (n0 + i) k).map v) i row m = .ok (row', m', true) ∧
      (∀ x, x < n → row'[x]? = some (v x)) ∧ PosMap.Exact m' v n := by
  intro k
  induction k with
  | zero =>
    intro i row m hk hl hr he
    have : n0 + i = n := by omega
    rw [this] at hr he
    exact ⟨row, m, rfl, hr, he⟩
  | succ k ih =>
    intro i row m hk hl hr he
    have hnone : PosMap.find m (v (n0 + i)) = none := by
      cases hx : PosMap.find m (v (n0 + i)) with
      | none => rfl
      | some p =>
        obtain ⟨h1, h2⟩ := (he.find _ p).1 hx
        have := hinj p (n0 + i) (by omega) (by omega) h2
        omega
    have he' : PosMap.Exact (PosMap.insert m (v (n0 + i)) (n0 + i)) v (n0 + i + 1) := by
      refine (exact_insert he ?_).congr ?_
      · intro x hx hxx
        have := hinj x (n0 + i) (by omega) (by omega) hxx
        omega
      · intro p hp
        by_cases h : p = n0 + i
        · rw [h, Function.update_self]
        · rw [Function.update_of_ne h]
    obtain ⟨row', m', g1, g2, g3⟩ := ih (i + 1) (row.set (n0 + i) (v (n0 + i))) _ (by omega) (by simpa using hl) (by
      intro x hx
      rw [List.getElem?_set]
      by_cases h : n0 + i = x
      · subst h; rw [if_pos rfl, if_pos (by omega)]
      · rw [if_neg h]; exact hr x (by omega)) he'
    refine ⟨row', m', ?_, g2, g3⟩
    rw [List.range'_succ, List.map_cons, undoPlace, wrap64_ok (by omega), if_neg (by omega)]
    simp only
    rw [hnone]
    exact g1

/-! ## Swapping back -/

theorem undoSwaps_ok {n : ℕ} (hn : n ≤ 2 ^ 62) : ∀ (l : List St.Swap) (s : RamForest H) (v : ℕ → H),
    (∀ sw ∈ l, 0 < (asRange sw).2.2 ∧ sw.src + (asRange sw).2.2 ≤ n ∧ sw.dst + (asRange sw).2.2 ≤ n ∧
      (sw.src + (asRange sw).2.2 ≤ sw.dst ∨ sw.dst + (asRange sw).2.2 ≤ sw.src)) →
    s.numLeaves = n → Leaves s.ext n v → PosMap.Exact s.posmap v n →
    ∃ s', undoSwaps l s = .ok s' ∧ s'.numLeaves = n ∧ s'.ext.length = s.ext.length ∧
      Leaves s'.ext n (execRanges (l.map asRange) v) ∧ PosMap.Exact s'.posmap (execRanges (l.map asRange) v) n ∧
      ∀ q, q ≠ 0 → s'.ext[q]? = s.ext[q]? := by
  intro l
  induction l with
  | nil => intro s v _ hs hv he; exact ⟨s, rfl, hs, rfl, hv, he, fun _ _ => rfl⟩
  | cons sw l ih =>
    intro s v hb hs hv he
    obtain ⟨b0, b1, b2, b3⟩ := hb sw (by simp)
    set len := (asRange sw).2.2 with hlen
    have hr : (if !sw.isRange then 1 else sw.range) = len := by
      rw [hlen]; unfold asRange; cases sw.isRange <;> rfl
    have hu : ∃ m, Acc.updatePosRange vt s sw.src sw.dst len = .ok { s with posmap := m } ∧
        PosMap.Exact m (swapRanges sw.src sw.dst len v) n := by
      refine ⟨_, ?_, he.swap (by omega) b1 b2 b3⟩
      unfold Acc.updatePosRange
      rw [if_neg (by rw [he.len]; omega)]
      simp only [vt]
      rw [readLeafRange_ok' hs hn hv _ _ b1, ok_bind, readLeafRange_ok' hs hn hv _ _ b2, ok_bind]
      rfl
    obtain ⟨m, u1, u2⟩ := hu
    obtain ⟨ext', w1, w2, w3, w4⟩ := swapRange_ok' (s := { s with posmap := m }) hs hn hv b0 b1 b2 b3
    obtain ⟨s', g1, g2, g3, g4, g5, g6⟩ := ih { s with posmap := m, ext := ext' } _
      (fun x hx => hb x (by simp [hx])) hs w3 u2
    refine ⟨s', ?_, g2, g3.trans w2, g4, g5, fun q hq => (g6 q hq).trans (w4 q hq)⟩
    rw [undoSwaps, hr, u1, ok_bind, w1, ok_bind, g1]

/-! ## The dirty nodes -/

theorem mem_insertUniq (x y : ℕ) : ∀ l : List ℕ, y ∈ insertUniq x l ↔ y = x ∨ y ∈ l := by
  intro l
  induction l with
  | nil => simp [insertUniq]
  | cons z l ih =>
    rw [insertUniq]
    split
    · simp
    · split
      · rename_i h; subst h; simp
      · simp [ih]; tauto

theorem mem_sortUniq (y : ℕ) : ∀ l : List ℕ, y ∈ sortUniq l ↔ y ∈ l := by
  intro l
  induction l with
  | nil => simp [sortUniq]
  | cons x l ih =>
    have : sortUniq (x :: l) = insertUniq x (sortUniq l) := rfl
    rw [this, mem_insertUniq, ih]; simp

theorem firstDirt_ok {n : ℕ} (hn : n ≤ 2 ^ 62) : ∀ (E O : List ℕ), (∀ x ∈ E, x < n) →
    ∃ O' : List ℕ, firstDirt n E (O.map (posOf (St.numRows n) 1)) = .ok (O'.map (posOf (St.numRows n) 1)) ∧
      ∀ d, d ∈ O' ↔ d ∈ O ∨ ∃ x ∈ E, x / 2 < n / 2 ∧ x / 2 = d := by
  have hR := numRows_le_62 hn
  have hnR : n ≤ 2 ^ St.numRows n := le_two_pow_numRows (by omega)
  intro E
  induction E with
  | nil => intro O _; exact ⟨O, rfl, by simp⟩
  | cons x E ih =>
    intro O hb
    have hx := hb x (by simp)
    have hxR : x < 2 ^ (St.numRows n + 1 - 0) := by rw [Nat.sub_zero, pow_succ]; omega
    have hp := parent_posOf (n := n) (r := 0) (i := x) (by omega) (Nat.zero_le _) hxR
    rw [posOf_zero] at hp
    have hskip : ∀ (k : Bool → Res (List ℕ)), (do
        let hr ← St.hasRoot n 0
        let skip ← if hr then do pure (decide ((← St.rootPosition n 0) ≤ x)) else pure false
        k skip) = k (decide (n / 2 ≤ x / 2)) := by
      intro k
      have hd := testBit_div (n := n) (t := 0)
      simp only [pow_zero, Nat.div_one, zero_add, pow_one] at hd
      rw [hasRoot_eq (by omega), ok_bind]
      cases hb0 : n.testBit 0 with
      | false =>
        rw [hb0] at hd
        simp at hd
        rw [decide_eq_false (by omega)]
        rfl
      | true =>
        rw [hb0] at hd
        simp at hd
        rw [if_pos rfl, rootPosition_eq hn (Nat.zero_le _), ok_bind, posOf_zero, rootIdx_le]
        show k (decide (2 * (n / 2 ^ 1) ≤ x)) = _
        congr 1
        rw [pow_one]
        by_cases h : n / 2 ≤ x / 2
        · rw [decide_eq_true h, decide_eq_true (by omega)]
        · rw [decide_eq_false h, decide_eq_false (by omega)]
    rw [firstDirt, hp, ok_bind]
    have hs := hskip (fun skip => if skip then firstDirt n E (O.map (posOf (St.numRows n) 1))
      else if (O.map (posOf (St.numRows n) 1)).getLast? = some (posOf (St.numRows n) (0 + 1) (x / 2)) then
        firstDirt n E (O.map (posOf (St.numRows n) 1))
      else firstDirt n E (O.map (posOf (St.numRows n) 1) ++ [posOf (St.numRows n) (0 + 1) (x / 2)]))
    have hgoal : ∃ O1 : List ℕ, (if decide (n / 2 ≤ x / 2) = true then firstDirt n E (O.map (posOf (St.numRows n) 1))
      else if (O.map (posOf (St.numRows n) 1)).getLast? = some (posOf (St.numRows n) (0 + 1) (x / 2)) then
        firstDirt n E (O.map (posOf (St.numRows n) 1))
      else firstDirt n E (O.map (posOf (St.numRows n) 1) ++ [posOf (St.numRows n) (0 + 1) (x / 2)])) =
        firstDirt n E (O1.map (posOf (St.numRows n) 1)) ∧ ∀ d, d ∈ O1 ↔ d ∈ O ∨ (x / 2 < n / 2 ∧ x / 2 = d) := by
      by_cases h : n / 2 ≤ x / 2
      · refine ⟨O, by rw [if_pos (by simpa using h)], ?_⟩
        intro d; constructor
        · exact .inl
        · rintro (g | ⟨g, -⟩)
          · exact g
          · omega
      · rw [if_neg (by simpa using h)]
        by_cases hl : (O.map (posOf (St.numRows n) 1)).getLast? = some (posOf (St.numRows n) (0 + 1) (x / 2))
        · refine ⟨O, by rw [if_pos hl], ?_⟩
          have hmem : x / 2 ∈ O := by
            rw [List.getLast?_map, Option.map_eq_some_iff] at hl
            obtain ⟨y, hy1, hy2⟩ := hl
            have : y = x / 2 := by unfold posOf at hy2; simp only [zero_add] at hy2; omega
            rw [← this]; exact List.mem_of_getLast? hy1
          intro d; constructor
          · exact .inl
          · rintro (g | ⟨-, rfl⟩)
            · exact g
            · exact hmem
        · refine ⟨O ++ [x / 2], by rw [if_neg hl, List.map_append]; rfl, ?_⟩
          intro d
          rw [List.mem_append, List.mem_singleton]
          constructor
          · rintro (g | rfl)
            · exact .inl g
            · exact .inr ⟨by omega, rfl⟩
          · rintro (g | ⟨-, rfl⟩)
            · exact .inl g
            · exact .inr rfl
    obtain ⟨O1, g1, g2⟩ := hgoal
    obtain ⟨O', k1, k2⟩ := ih O1 (fun y hy => hb y (by simp [hy]))
    refine ⟨O', ?_, ?_⟩
    · rw [← k1, ← g1]
      exact hs
    · intro d
      rw [k2, g2]
      simp only [List.mem_cons, exists_eq_or_imp]
      tauto

/-! ## Rehashing -/

/-- `ReHash` of a node whose children are known. -/
theorem nodeReHash_row {s : RamForest H} {n : ℕ} (hs : s.numLeaves = n) (hn : n ≤ 2 ^ 62) {r d : ℕ} {a b : H}
    {row : List H} (hd : d < n / 2 ^ (r + 1)) (ha : cell s.ext r (2 * d) = some a)
    (hb : cell s.ext r (2 * d + 1) = some b) (hrow : s.ext[r + 1]? = some row) (hl : d < row.length) :
    nodeReHash s (dnode n (r + 1) d) = .ok { s with ext := s.ext.set (r + 1) (row.set d (HashOps.ph a b)) } := by
  have hR := numRows_le_62 hn
  obtain ⟨r1, i1⟩ := row_le hn hd
  have hcb := child_bound hd
  have hi' : d < 2 ^ (St.numRows n - r) := lt_of_lt_of_le i1 (Nat.pow_le_pow_right (by omega) (by omega))
  obtain ⟨c1, j1⟩ := row_le hn (show 2 * d < n / 2 ^ r by omega)
  obtain ⟨-, j2⟩ := row_le hn hcb
  unfold nodeReHash dnode read
  simp only [hs]
  rw [child_posOf (by omega) (by omega) hi' (by omega : 0 < 2), ok_bind,
    child_posOf (by omega) (by omega) hi' (by omega : 1 < 2), ok_bind, add_zero,
    readIn_ok hn (by omega) j1 ha, ok_bind, readIn_ok hn (by omega) j2 hb, ok_bind,
    detectRow_posOf (by omega) (by omega) i1, ok_bind, rowOffset_posOf (by omega) (by omega) (by omega) i1, ok_bind,
    vecAt_ok hrow, ok_bind, posOf_sub64 hn (by omega) i1, vecSet_ok hl, ok_bind]
  rfl

theorem undoRehashRow_ok {n : ℕ} (hn : n ≤ 2 ^ 62) {r : ℕ} {c : ℕ → H} : ∀ (Dt N : List ℕ) (s : RamForest H) (row : List H),
    s.numLeaves = n → (∀ i, i < n / 2 ^ r → cell s.ext r i = some (c i)) → s.ext[r + 1]? = some row →
    row.length = n / 2 ^ (r + 1) → (∀ d ∈ Dt, d < n / 2 ^ (r + 1)) →
    ∃ (row' : List H) (N' : List ℕ), undoRehashRow (Dt.map (dnode n (r + 1))) s (N.map (dnode n (r + 2))) =
        .ok ({ s with ext := s.ext.set (r + 1) row' }, N'.map (dnode n (r + 2))) ∧
      row'.length = n / 2 ^ (r + 1) ∧
      (∀ i, row'[i]? = if i ∈ Dt then some (HashOps.ph (c (2 * i)) (c (2 * i + 1))) else row[i]?) ∧
      (∀ e, e ∈ N' ↔ e ∈ N ∨ ∃ d ∈ Dt, d ≠ 2 * (n / 2 ^ (r + 2)) ∧ d / 2 = e) := by
  intro Dt
  induction Dt with
  | nil =>
    intro N s row hs hc hrow hl hb
    refine ⟨row, N, ?_, hl, by simp, by simp⟩
    have : s.ext.set (r + 1) row = s.ext := by
      apply List.ext_getElem?
      intro i
      rw [List.getElem?_set]
      split
      · rename_i h; subst h; rw [if_pos (lt_of_get hrow), hrow]
      · rfl
    rw [this]; rfl
  | cons d Dt ih =>
    intro N s row hs hc hrow hl hb
    have hd := hb d (by simp)
    have hcb := child_bound hd
    have hre := nodeReHash_row hs hn hd (hc _ (by omega)) (hc _ hcb) hrow (by omega)
    set s1 : RamForest H := { s with ext := s.ext.set (r + 1) (row.set d (HashOps.ph (c (2 * d)) (c (2 * d + 1)))) } with hs1
    have hpar := nodeParent_ok s1 hn hd
    have hstep : ∃ N1 : List ℕ, undoRehashRow ((d :: Dt).map (dnode n (r + 1))) s (N.map (dnode n (r + 2))) =
        undoRehashRow (Dt.map (dnode n (r + 1))) s1 (N1.map (dnode n (r + 2))) ∧
        ∀ e, e ∈ N1 ↔ e ∈ N ∨ (d ≠ 2 * (n / 2 ^ (r + 2)) ∧ d / 2 = e) := by
      rw [List.map_cons, undoRehashRow, hre, ok_bind, hpar, ok_bind]
      by_cases he : d = 2 * (n / 2 ^ (r + 1 + 1))
      · rw [if_pos he]
        exact ⟨N, rfl, by simp [he]⟩
      · rw [if_neg he]
        simp only
        rw [List.getLast?_map]
        cases hl : N.getLast? with
        | none =>
          refine ⟨N ++ [d / 2], by simp, ?_⟩
          intro e; simp [he, eq_comm]
        | some l =>
          simp only [Option.map_some]
          by_cases hld : l = d / 2
          · refine ⟨N, by simp [hld], ?_⟩
            intro e; constructor
            · exact .inl
            · rintro (g | ⟨-, rfl⟩)
              · exact g
              · rw [← hld]; exact List.mem_of_getLast? hl
          · refine ⟨N ++ [d / 2], ?_, ?_⟩
            · have : (dnode (H := H) n (r + 2) l).pos ≠ (dnode (H := H) n (r + 1 + 1) (d / 2)).pos := by
                unfold dnode posOf; simp only [show r + 1 + 1 = r + 2 from rfl]; omega
              simp [this]
            · intro e; simp [he, eq_comm]
    obtain ⟨N1, e1, e2⟩ := hstep
    have hlt : r + 1 < s.ext.length := lt_of_get hrow
    obtain ⟨row', N', g1, g2, g3, g4⟩ := ih N1 s1 (row.set d (HashOps.ph (c (2 * d)) (c (2 * d + 1)))) hs (by
      intro i hi
      rw [hs1]
      show cell (s.ext.set (r + 1) _) r i = _
      rw [cell_set hlt, if_neg (by omega)]
      exact hc i hi) (by
      show (s.ext.set (r + 1) _)[r + 1]? = _
      rw [List.getElem?_set, if_pos rfl, if_pos hlt]) (by simpa using hl) (fun x hx => hb x (by simp [hx]))
    refine ⟨row', N', ?_, g2, ?_, ?_⟩
    · rw [e1, g1]
      have : s1.ext.set (r + 1) row' = s.ext.set (r + 1) row' := by
        rw [hs1]
        show (s.ext.set (r + 1) _).set (r + 1) row' = _
        rw [List.set_set]
      rw [this]
    · intro i
      rw [g3]
      by_cases hi : i ∈ Dt
      · simp [hi]
      · rw [if_neg hi, List.getElem?_set]
        by_cases hid : d = i
        · subst hid; simp [hl, hd]
        · rw [if_neg hid, if_neg (by simp; tauto)]
    · intro e
      rw [g4, e2]
      simp only [List.mem_cons, exists_eq_or_imp]
      tauto

/-- The rows below `r` are right, the others up to the dirty leaves `E`. -/
structure Clean (s : RamForest H) (n : ℕ) (f : ℕ → H) (E : List ℕ) (r : ℕ) : Prop where
  num : s.numLeaves = n
  low : ∀ q, q < r → ∀ i, i < n / 2 ^ q → cell s.ext q i = some (mt f q i)
  high : ∀ q, r ≤ q → ∀ i, i < n / 2 ^ q → (∀ x ∈ E, x / 2 ^ q ≠ i) → cell s.ext q i = some (mt f q i)

theorem undoRehash_ok {n : ℕ} {f : ℕ → H} {E : List ℕ} (hn : n ≤ 2 ^ 62) : ∀ (k r : ℕ) (s : RamForest H) (Dt : List ℕ),
    r + k = St.numRows n → Clean s n f E (r + 1) → r < s.ext.length →
    (∀ d, d ∈ Dt ↔ d < n / 2 ^ (r + 1) ∧ ∃ x ∈ E, x / 2 ^ (r + 1) = d) →
    (St.numRows n < s.ext.length →
      ∃ s', undoRehash k (r + 1) (Dt.map (dnode n (r + 1))) s = .ok s' ∧ Clean s' n f E (St.numRows n + 1) ∧
        s'.posmap = s.posmap ∧ s'.ext.length = s.ext.length) ∧
    (s.ext.length ≤ St.numRows n → undoRehash k (r + 1) (Dt.map (dnode n (r + 1))) s = .error .ub) := by
  have hR := numRows_le_62 hn
  intro k
  induction k with
  | zero =>
    intro r s Dt hk hc hr _
    have : r = St.numRows n := by omega
    subst this
    exact ⟨fun _ => ⟨s, rfl, hc, rfl, rfl⟩, fun h => by omega⟩
  | succ k ih =>
    intro r s Dt hk hc hr hDt
    by_cases hrl : s.ext.length ≤ r + 1
    · refine ⟨fun h => by omega, fun _ => ?_⟩
      unfold undoRehash vecGet
      rw [List.getElem?_eq_none hrl]
      rfl
    have hrl : r + 1 < s.ext.length := by omega
    obtain ⟨row, hrow⟩ : ∃ row, s.ext[r + 1]? = some row := ⟨_, List.getElem?_eq_getElem hrl⟩
    set row1 := vecResize row (n / 2 ^ (r + 1)) HashOps.zero with hrow1
    set s1 : RamForest H := { s with ext := s.ext.set (r + 1) row1 } with hs1
    obtain ⟨row', N', g1, g2, g3, g4⟩ := undoRehashRow_ok hn (c := mt f r) Dt [] s1 row1 hc.num (by
      intro i hi
      rw [hs1]
      show cell (s.ext.set (r + 1) _) r i = _
      rw [cell_set hrl, if_neg (by omega)]
      exact hc.low r (by omega) i hi) (by
      show (s.ext.set (r + 1) _)[r + 1]? = _
      rw [List.getElem?_set, if_pos rfl, if_pos hrl]) (by rw [hrow1, vecResize_length])
      (fun d hd => ((hDt d).1 hd).1)
    have hset : s1.ext.set (r + 1) row' = s.ext.set (r + 1) row' := by
      rw [hs1]
      show (s.ext.set (r + 1) _).set (r + 1) row' = _
      rw [List.set_set]
    rw [hset] at g1
    set s2 : RamForest H := { s1 with ext := s.ext.set (r + 1) row' } with hs2
    have hcl : Clean s2 n f E (r + 2) := by
      refine ⟨hc.num, ?_, ?_⟩
      · intro q hq i hi
        show cell (s.ext.set (r + 1) row') q i = _
        rw [cell_set hrl]
        by_cases hqr : q = r + 1
        · subst hqr
          rw [if_pos rfl, g3]
          by_cases hiD : i ∈ Dt
          · rw [if_pos hiD]; rfl
          · rw [if_neg hiD]
            have hcell := hc.high (r + 1) le_rfl i hi (by
              intro x hx he
              exact hiD ((hDt i).2 ⟨hi, x, hx, he⟩))
            unfold cell at hcell
            rw [hrow] at hcell
            exact vecResize_get hcell hi
        · rw [if_neg hqr]; exact hc.low q (by omega) i hi
      · intro q hq i hi hE
        show cell (s.ext.set (r + 1) row') q i = _
        rw [cell_set hrl, if_neg (by omega)]
        exact hc.high q (by omega) i hi hE
    have hl2 : s2.ext.length = s.ext.length := by rw [hs2]; simp
    have IH := ih (r + 1) s2 N' (by omega) hcl (by rw [hl2]; exact hrl) (by
      intro d
      rw [g4]
      have e2 : ∀ x, x / 2 ^ (r + 1 + 1) = x / 2 ^ (r + 1) / 2 := by
        intro x; rw [pow_succ, Nat.div_div_eq_div_mul]
      have hn2 := e2 n
      simp only [List.not_mem_nil, false_or]
      constructor
      · rintro ⟨e, he, hne, rfl⟩
        obtain ⟨h1, x, hx, hxe⟩ := (hDt e).1 he
        refine ⟨?_, x, hx, by rw [e2, hxe]⟩
        rw [hn2] at hne ⊢
        omega
      · rintro ⟨h1, x, hx, rfl⟩
        refine ⟨x / 2 ^ (r + 1), (hDt _).2 ⟨?_, x, hx, rfl⟩, ?_, (e2 x).symm⟩
        · rw [hn2, e2] at h1; omega
        · rw [show r + 2 = r + 1 + 1 from rfl, hn2]
          rw [hn2, e2] at h1; omega)
    have key : undoRehash (k + 1) (r + 1) (Dt.map (dnode n (r + 1))) s =
        undoRehash k (r + 1 + 1) (N'.map (dnode n (r + 1 + 1))) s2 := by
      have hsn := hc.num
      subst hsn
      rw [undoRehash, vecGet_ok hrow, ok_bind]
      have hsz : shr64 s.numLeaves ((r + 1 : ℕ) : ℤ) = .ok (s.numLeaves / 2 ^ (r + 1)) := shr64_ok (by omega)
      rw [hsz, ok_bind]
      have g1' : undoRehashRow (Dt.map (dnode s.numLeaves (r + 1))) s1 [] = _ := g1
      rw [← hrow1]
      show (undoRehashRow (Dt.map (dnode s.numLeaves (r + 1))) s1 [] >>= _) = _
      rw [g1', ok_bind]
    rw [hl2] at IH
    rw [key]
    refine ⟨fun h => ?_, IH.2⟩
    obtain ⟨s', k1, k2, k3, k4⟩ := IH.1 h
    exact ⟨s', k1, k2, k3, k4⟩

theorem restoreRoots_ok {s : RamForest H} {n : ℕ} {f : ℕ → H} (hs : s.numLeaves = n) (hn : n ≤ 2 ^ 62)
    (hc : Cells s.ext n (mt f)) (hp : PosMap.Exact s.posmap f n) :
    ∃ s', restoreRoots s = .ok s' ∧ Inv s' n f ∧ s'.ext = s.ext := by
  unfold restoreRoots
  rw [hs, rootPositions_eq hn, ok_bind, treeRows_eq hn le_rfl,
    readRoots_ok hs hn hc n (rootIdx n), ok_bind]
  · refine ⟨_, rfl, ⟨rfl, hc, hp, ?_⟩, rfl⟩
    simp only [List.map_map]
    rfl
  · intro t ht
    exact root_in (mem_treeRows.1 ht).2

/-! ## `Undo` -/

theorem execRanges_fix {α : Type} {x : ℕ} : ∀ (l : List (ℕ × ℕ × ℕ)) (v : ℕ → α),
    (∀ o ∈ l, ¬ (o.1 ≤ x ∧ x < o.1 + o.2.2) ∧ ¬ (o.2.1 ≤ x ∧ x < o.2.1 + o.2.2)) → execRanges l v x = v x := by
  intro l
  induction l with
  | nil => intro v _; rfl
  | cons o l ih =>
    intro v h
    obtain ⟨h1, h2⟩ := h o (by simp)
    have : execRanges (o :: l) v = execRanges l (swapRanges o.1 o.2.1 o.2.2 v) := rfl
    rw [this, ih _ (fun p hp => h p (by simp [hp]))]
    unfold swapRanges
    rw [if_neg h1, if_neg h2]

theorem mem_swapDirt {n : ℕ} (hn : n ≤ 2 ^ 62) {sw : St.Swap} (h1 : sw.src + (asRange sw).2.2 ≤ n)
    (h2 : sw.dst + (asRange sw).2.2 ≤ n) (x : ℕ) : x ∈ swapDirt sw ↔
      (sw.src ≤ x ∧ x < sw.src + (asRange sw).2.2) ∨ (sw.dst ≤ x ∧ x < sw.dst + (asRange sw).2.2) := by
  set len := (asRange sw).2.2 with hlen
  have hr : (if !sw.isRange then 1 else sw.range) = len := by
    rw [hlen]; unfold asRange; cases sw.isRange <;> rfl
  unfold swapDirt
  simp only [hr]
  rw [List.mem_flatMap]
  constructor
  · rintro ⟨i, hi, hx⟩
    rw [List.mem_range] at hi
    rw [wrap64_ok (by omega), wrap64_ok (by omega)] at hx
    simp at hx
    omega
  · rintro (⟨g1, g2⟩ | ⟨g1, g2⟩)
    · refine ⟨x - sw.src, by rw [List.mem_range]; omega, ?_⟩
      rw [wrap64_ok (by omega), wrap64_ok (by omega)]
      simp; omega
    · refine ⟨x - sw.dst, by rw [List.mem_range]; omega, ?_⟩
      rw [wrap64_ok (by omega), wrap64_ok (by omega)]
      simp; omega

/-- `Undo` with the batch of the modification that led to the current leaves. -/
theorem undo_cases {s : RamForest H} {n a : ℕ} {f g : ℕ → H} {D : List ℕ} (hn : n ≤ 2 ^ 62)
    (hs : D.Pairwise (· < ·)) (hb : ∀ i ∈ D, i < n) (hinj : ∀ x y, x < n → y < n → f x = f y → x = y)
    (h : Inv s (n - D.length + a) g) (hm : n - D.length + a ≤ 2 ^ 62)
    (hg : ∀ x, x < n - D.length → g x = f ((sg n (n - D.length) D (St.numRows n) 0).symm x)) :
    (St.numRows n < s.ext.length →
      ∃ s', undo s (undoOf n f D a) = .ok (true, s') ∧ Inv s' n f ∧ s'.ext.length = s.ext.length) ∧
    (s.ext.length ≤ St.numRows n → undo s (undoOf n f D a) = .error .ub) := by
  have hext := h.cells.rows
  have hR := numRows_le_62 hn
  have hlen : D.length ≤ n := by
    have := sorted_length_add_le D 0 n hs (fun x hx => ⟨Nat.zero_le _, hb x hx⟩) (Nat.zero_le _)
    omega
  have hi := rowInv hs hb (n' := n - D.length) (by omega)
  have hS := sg_sinks hi (le_two_pow_numRows (by omega)) (r := 0) (Nat.zero_le _)
  set σ := (sg n (n - D.length) D (St.numRows n) 0) with hσ
  set n' := n - D.length with hn'
  have hσlt : ∀ x, x < n → σ.symm x < n := by
    intro x hx
    by_contra hc
    have := hS.fix (σ.symm x) (by simpa using hc)
    rw [Equiv.apply_symm_apply] at this
    omega
  obtain ⟨rows, ranges, t1, t2, t3, t4⟩ := C09_undoTransform n hn D hs hb
  have t5 := transform_exec hn hs hb t1 f
  rw [← hn', ← hσ] at t5
  have t6 := (t4 H f).2
  rw [t5] at t6
  have hasr : (fun sw : St.Swap => (sw.src, sw.dst, if sw.isRange then sw.range else 1)) = asRange := rfl
  rw [hasr] at t6
  -- every range is non-empty and inside
  have hrb : ∀ sw ∈ ranges, 0 < (asRange sw).2.2 ∧ sw.src + (asRange sw).2.2 ≤ n ∧ sw.dst + (asRange sw).2.2 ≤ n ∧
      (sw.src + (asRange sw).2.2 ≤ sw.dst ∨ sw.dst + (asRange sw).2.2 ≤ sw.src) := by
    intro sw hsw
    refine ⟨?_, t3 sw hsw⟩
    rw [undoTransform_eq hn hs hb] at t2
    injection t2 with t2
    rw [← t2] at hsw
    obtain ⟨c, -, hsw⟩ := List.mem_flatMap.1 hsw
    obtain ⟨o, -, rfl⟩ := List.mem_map.1 hsw
    rw [asRange_leafOp]; positivity
  -- erase
  have hleaves : Leaves s.ext (n' + a) g := by
    intro i hi
    exact h.cells.get 0 i (by simpa using hi)
  obtain ⟨m1, e1, e2⟩ := undoErase_ok (n' := n') h.num hm hleaves a n' s.posmap le_rfl rfl
    (upto_of_exact h.pos (by omega))
  have e3 := e2.exact (by omega)
  -- place
  obtain ⟨row0, hrow0⟩ : ∃ row0, s.ext[0]? = some row0 := ⟨_, List.getElem?_eq_getElem (by omega)⟩
  obtain ⟨row0', m2, p1, p2, p3⟩ := undoPlace_ok (n0 := n') (n := n) (v := f ∘ σ.symm) hn (by
      intro x y hx hy hxy
      exact σ.symm.injective (hinj _ _ (hσlt x hx) (hσlt y hy) hxy)) D.length 0
    (vecResize row0 n HashOps.zero) m1 (by omega) (vecResize_length _ _ _) (by
      intro x hx
      have := hleaves x (by omega)
      unfold cell at this
      rw [hrow0] at this
      have hgx : g x = (f ∘ σ.symm) x := hg x (by omega)
      rw [← hgx]
      exact vecResize_get this (by omega)) (by
      rw [add_zero]
      exact e3.congr (fun p hp => hg p hp))
  rw [add_zero] at p1
  -- swap back
  set s2 : RamForest H := { s with numLeaves := n, posmap := m2, ext := s.ext.set 0 row0' } with hs2
  have hl2 : Leaves s2.ext n (f ∘ σ.symm) := by
    intro i hi
    rw [hs2]
    show cell (s.ext.set 0 row0') 0 i = _
    rw [cell_set (by omega), if_pos rfl]
    exact p2 i hi
  obtain ⟨s3, w1, w2, w3, w4, w5, w6⟩ := undoSwaps_ok hn ranges.reverse s2 (f ∘ σ.symm)
    (fun sw hsw => hrb sw (List.mem_reverse.1 hsw)) rfl hl2 p3
  rw [t6] at w4 w5
  -- dirty leaves
  set E := sortUniq ((List.range (undoOf n f D a).hashes.length).map (fun i => wrap64 (n' + i))
    ++ ranges.reverse.flatMap swapDirt) with hE
  have hmemE : ∀ x, x ∈ E ↔ (n' ≤ x ∧ x < n) ∨ ∃ sw ∈ ranges,
      (sw.src ≤ x ∧ x < sw.src + (asRange sw).2.2) ∨ (sw.dst ≤ x ∧ x < sw.dst + (asRange sw).2.2) := by
    intro x
    rw [hE, mem_sortUniq, List.mem_append, List.mem_map, List.mem_flatMap]
    have hl : (undoOf n f D a).hashes.length = D.length := by simp [undoOf]
    rw [hl]
    constructor
    · rintro (⟨i, hi, rfl⟩ | ⟨sw, hsw, hx⟩)
      · rw [List.mem_range] at hi
        rw [wrap64_ok (by omega)]
        left; omega
      · rw [List.mem_reverse] at hsw
        obtain ⟨-, b1, b2, -⟩ := hrb sw hsw
        exact .inr ⟨sw, hsw, (mem_swapDirt hn b1 b2 x).1 hx⟩
    · rintro (⟨g1, g2⟩ | ⟨sw, hsw, hx⟩)
      · left
        refine ⟨x - n', by rw [List.mem_range]; omega, ?_⟩
        rw [wrap64_ok (by omega)]; omega
      · obtain ⟨-, b1, b2, -⟩ := hrb sw hsw
        exact .inr ⟨sw, List.mem_reverse.2 hsw, (mem_swapDirt hn b1 b2 x).2 hx⟩
  have hEb : ∀ x ∈ E, x < n := by
    intro x hx
    rcases (hmemE x).1 hx with g | ⟨sw, hsw, g⟩
    · exact g.2
    · obtain ⟨-, b1, b2, -⟩ := hrb sw hsw
      omega
  have hsame : ∀ x, x < n → x ∉ E → x < n' ∧ f x = g x := by
    intro x hx hxE
    have hxn : x < n' := by
      by_contra hc
      exact hxE ((hmemE x).2 (.inl ⟨by omega, hx⟩))
    refine ⟨hxn, ?_⟩
    have hfix : execRanges (ranges.reverse.map asRange) (f ∘ σ.symm) x = (f ∘ σ.symm) x := by
      apply execRanges_fix
      intro o ho
      obtain ⟨sw, hsw, rfl⟩ := List.mem_map.1 ho
      rw [List.mem_reverse] at hsw
      have := fun hc => hxE ((hmemE x).2 (.inr ⟨sw, hsw, hc⟩))
      exact ⟨fun hc => this (.inl hc), fun hc => this (.inr hc)⟩
    rw [t6] at hfix
    rw [hfix, hg x hxn]; rfl
  obtain ⟨O, f1, f2⟩ := firstDirt_ok hn E [] hEb
  have hclean : Clean s3 n f E 1 := by
    refine ⟨w2, ?_, ?_⟩
    · intro q hq i hi
      have : q = 0 := by omega
      subst this
      exact w4 i (by simpa using hi)
    · intro q hq i hi hx
      have hblock : ∀ x, x / 2 ^ q = i → x < n ∧ x ∉ E := by
        intro x hxi
        refine ⟨?_, fun hc => hx x hc hxi⟩
        by_contra hc
        have : n / 2 ^ q ≤ x / 2 ^ q := Nat.div_le_div_right (by omega)
        omega
      have e : mt f q i = mt g q i := by
        apply mt_congr
        intro x hxi
        obtain ⟨h1, h2⟩ := hblock x hxi
        exact (hsame x h1 h2).2
      have hin : i < (n' + a) / 2 ^ q := by
        have hp : 0 < 2 ^ q := by positivity
        have hlast : (i * 2 ^ q + (2 ^ q - 1)) / 2 ^ q = i := by
          rw [Nat.add_comm, Nat.add_mul_div_right _ _ hp, Nat.div_eq_of_lt (by omega), zero_add]
        obtain ⟨h1, h2⟩ := hblock _ hlast
        have h3 := (hsame _ h1 h2).1
        have : (i + 1) * 2 ^ q ≤ n' + a := by rw [add_mul, one_mul]; omega
        have := (Nat.le_div_iff_mul_le hp).2 this
        omega
      unfold cell
      rw [w6 q (by omega), hs2]
      show ((s.ext.set 0 row0')[q]?).bind _ = _
      rw [List.getElem?_set, if_neg (by omega), e]
      exact h.cells.get q i hin
  have hl3 : s3.ext.length = s.ext.length := by rw [w3, hs2]; simp
  have hre := undoRehash_ok (E := E) hn (St.numRows n) 0 s3 O (by omega) hclean (by omega) (by
    intro d
    rw [f2]
    simp only [zero_add, pow_one, List.not_mem_nil, false_or]
    constructor
    · rintro ⟨x, hx, h1, rfl⟩; exact ⟨h1, x, hx, rfl⟩
    · rintro ⟨h1, x, hx, rfl⟩; exact ⟨x, hx, h1, rfl⟩)
  have hun : undo s (undoOf n f D a) = (do
      let s4 ← undoRehash (St.numRows n) 1 (O.map (dnode n 1)) s3
      let s5 ← restoreRoots s4
      return (true, s5)) := by
    clear hre
    unfold undo
    rw [if_neg (by omega)]
    simp only [h.num]
    have hprev : sub64 (wrap64 (n' + a + (undoOf n f D a).positions.length)) (undoOf n f D a).numAdds = n := by
      show sub64 (wrap64 (n' + a + D.length)) a = n
      rw [wrap64_ok (by omega), sub64_ok (by omega) (by omega)]; omega
    have hst : sub64 (n' + a) (undoOf n f D a).numAdds = n' := by
      show sub64 (n' + a) a = n'
      rw [sub64_ok (by omega) (by omega)]; omega
    have ht : St.undoTransform n (undoOf n f D a).positions = .ok ranges := t2
    rw [hprev, hst, ht, ok_bind, show n' + a - n' = a by omega, e1, ok_bind]
    simp only [Bool.not_true, Bool.false_eq_true, if_false]
    rw [vecGet_ok hrow0, ok_bind]
    have p1' : undoPlace n' (undoOf n f D a).hashes 0 (vecResize row0 n HashOps.zero) m1 = _ := p1
    rw [p1', ok_bind]
    simp only [Bool.not_true, Bool.false_eq_true, if_false]
    show (undoSwaps ranges.reverse s2 >>= _) = _
    rw [w1, ok_bind, ← hE]
    have f1' : firstDirt n E [] = _ := f1
    rw [f1', ok_bind, List.map_map]
    rfl
  rw [hl3] at hre
  simp only [zero_add] at hre
  constructor
  · intro hrows
    obtain ⟨s4, r1, r2, r3, r4⟩ := hre.1 hrows
    have hcells4 : Cells s4.ext n (mt f) := by
      refine ⟨by rw [r4]; exact hrows, ?_⟩
      intro q i hi
      obtain ⟨hq, -⟩ := row_le hn hi
      exact r2.low q (by omega) i hi
    obtain ⟨s5, u1, u2, u3⟩ := restoreRoots_ok r2.num hn hcells4 (by rw [r3]; exact w5)
    refine ⟨s5, ?_, u2, by rw [u3, r4]⟩
    rw [hun, r1, ok_bind, u1, ok_bind]
    rfl
  · intro hshort
    rw [hun, hre.2 hshort, error_bind]

theorem undo_ok {s : RamForest H} {n a : ℕ} {f g : ℕ → H} {D : List ℕ} (hn : n ≤ 2 ^ 62)
    (hs : D.Pairwise (· < ·)) (hb : ∀ i ∈ D, i < n) (hinj : ∀ x y, x < n → y < n → f x = f y → x = y)
    (h : Inv s (n - D.length + a) g) (hm : n - D.length + a ≤ 2 ^ 62)
    (hg : ∀ x, x < n - D.length → g x = f ((sg n (n - D.length) D (St.numRows n) 0).symm x))
    (hrows : St.numRows n < s.ext.length) :
    ∃ s', undo s (undoOf n f D a) = .ok (true, s') ∧ Inv s' n f ∧ s'.ext.length = s.ext.length :=
  (undo_cases hn hs hb hinj h hm hg).1 hrows

end Ram
end Utreexo
