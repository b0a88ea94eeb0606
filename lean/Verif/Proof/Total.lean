import Verif.Props.Transform

/-!
# `ForestState` on arbitrary targets

Up to `2^62` leaves the functions on target lists return for every list, sane or not.
-/

set_option linter.unusedSectionVars false

namespace Utreexo
namespace St
open Spec

theorem parent_total {n : Nat} (hn : n ≤ 2 ^ 62) (p : Nat) : ∃ q, parent n p = .ok q := (C06_positions n hn p).2.2.2.1

theorem proofRow_of_parent {n : Nat} (hp : ∀ p, ∃ q, parent n p = .ok q) : ∀ (k : Nat) (l : List Nat), l.length ≤ k →
    ∃ r, proofRow n l = .ok r := by
  choose q hq using hp
  intro k
  induction k with
  | zero =>
    intro l hl
    have : l = [] := List.eq_nil_of_length_eq_zero (by omega)
    subst this
    exact ⟨_, by rw [proofRow]⟩
  | succ k ih =>
    intro l hl
    match l, hl with
    | [], _ => exact ⟨_, by rw [proofRow]⟩
    | [a], _ => exact ⟨_, by rw [proofRow, hq, ok_bind]; rfl⟩
    | [a, b], hl =>
      obtain ⟨r1, e1⟩ := ih [b] (by simp at hl ⊢; omega)
      rw [proofRow]
      simp only [hq, ok_bind, e1]
      split
      · exact ⟨_, rfl⟩
      · split <;> exact ⟨_, rfl⟩
    | [a, b, c], hl =>
      obtain ⟨r1, e1⟩ := ih [c] (by simp at hl ⊢; omega)
      obtain ⟨r2, e2⟩ := ih [b, c] (by simp at hl ⊢; omega)
      rw [proofRow]
      simp only [hq, ok_bind, e1, e2]
      split
      · exact ⟨_, rfl⟩
      · split
        · exact ⟨_, rfl⟩
        · split <;> exact ⟨_, rfl⟩
    | a :: b :: c :: d :: rest, hl =>
      obtain ⟨r1, e1⟩ := ih rest (by simp at hl ⊢; omega)
      obtain ⟨r2, e2⟩ := ih (d :: rest) (by simp at hl ⊢; omega)
      obtain ⟨r3, e3⟩ := ih (c :: d :: rest) (by simp at hl ⊢; omega)
      obtain ⟨r4, e4⟩ := ih (b :: c :: d :: rest) (by simp at hl ⊢; omega)
      rw [proofRow]
      simp only [hq, ok_bind, e1, e2, e3, e4]
      split
      · exact ⟨_, rfl⟩
      · split
        · exact ⟨_, rfl⟩
        · split
          · exact ⟨_, rfl⟩
          · split <;> exact ⟨_, rfl⟩

theorem proofRow_total {n : Nat} (hn : n ≤ 2 ^ 62) : ∀ (k : Nat) (l : List Nat), l.length ≤ k → ∃ r, proofRow n l = .ok r :=
  proofRow_of_parent (parent_total hn)

theorem dropRoot_total {n row : Nat} (hn : n ≤ 2 ^ 62) (hr : row ≤ numRows n) (l : List Nat) : ∃ r, dropRootTarget n row l = .ok r := by
  obtain ⟨-, -, -, -, -, -, -, -, h1, h2⟩ := C06_positions n hn 0
  obtain ⟨b, hb⟩ := h1 row (by have := numRows_le_62 hn; omega)
  obtain ⟨p, hp⟩ := h2 row hr
  unfold dropRootTarget
  rw [hb, ok_bind]
  cases b
  · exact ⟨_, rfl⟩
  · rw [if_pos rfl]
    cases l.getLast? with
    | none => exact ⟨_, rfl⟩
    | some t =>
      simp only [hp, ok_bind]
      split <;> exact ⟨_, rfl⟩

theorem proofRows_total {n : Nat} (hn : n ≤ 2 ^ 62) : ∀ (k row : Nat) (l : List Nat), row + k ≤ numRows n + 1 →
    ∃ r, proofRows n k row l = .ok r := by
  intro k
  induction k with
  | zero => intro row l _; exact ⟨_, rfl⟩
  | succ k ih =>
    intro row l h
    obtain ⟨ts, e1⟩ := dropRoot_total hn (row := row) (by omega) l
    obtain ⟨⟨pf, nx⟩, e2⟩ := proofRow_total hn _ ts le_rfl
    obtain ⟨⟨a, b⟩, e3⟩ := ih (row + 1) nx (by omega)
    exact ⟨_, by rw [proofRows, e1, ok_bind, e2, ok_bind]; dsimp only; rw [e3, ok_bind]; rfl⟩

theorem nextRow_total {n : Nat} (hn : n ≤ 2 ^ 62) : ∀ (k : Nat) (l : List Nat) (cnt : Nat), l.length ≤ k →
    ∃ ps ws, nextRowLoop n l cnt = .ok (ps, ws) ∧ ws.length % 2 = l.length % 2 := by
  choose q hq using parent_total hn
  intro k
  induction k with
  | zero =>
    intro l cnt hl
    have : l = [] := List.eq_nil_of_length_eq_zero (by omega)
    subst this
    exact ⟨_, _, rfl, rfl⟩
  | succ k ih =>
    intro l cnt hl
    match l, hl with
    | [], _ => exact ⟨_, _, rfl, rfl⟩
    | [a], _ =>
      rw [nextRowLoop]
      simp only [hq, ok_bind]
      split <;> exact ⟨_, _, rfl, rfl⟩
    | a :: b :: rest, hl =>
      rw [nextRowLoop]
      obtain ⟨p1, w1, e1, f1⟩ := ih rest cnt (by simp at hl ⊢; omega)
      obtain ⟨p2, w2, e2, f2⟩ := ih (b :: rest) (cnt + 1) (by simp at hl ⊢; omega)
      simp only [hq, ok_bind, e1, e2]
      split
      · exact ⟨_, _, rfl, by simp; omega⟩
      · split <;> exact ⟨_, _, rfl, by simp at f2 ⊢; omega⟩

theorem makeSwaps_total (d r : Bool) (pos : Nat) : ∀ (k : Nat) (l : List Nat), l.length ≤ k → (d = true → l.length % 2 = 1) →
    ∃ s, makeSwaps d r pos l = .ok s := by
  intro k
  induction k with
  | zero =>
    intro l hl hd
    have : l = [] := List.eq_nil_of_length_eq_zero (by omega)
    subst this
    cases d
    · exact ⟨_, rfl⟩
    · simp at hd
  | succ k ih =>
    intro l hl hd
    match l, hl, hd with
    | [], _, hd =>
      cases d
      · exact ⟨_, rfl⟩
      · simp at hd
    | [a], _, _ => exact ⟨_, rfl⟩
    | a :: b :: rest, hl, hd =>
      obtain ⟨s, e⟩ := ih rest (by simp at hl; omega) (fun h => by have := hd h; simp at this; omega)
      exact ⟨_, by rw [makeSwaps, e, ok_bind]; rfl⟩

theorem rootPositionIn_total {row next rows : Nat} (h : row ≤ rows) (hr : rows ≤ 62) : ∃ p, rootPositionIn row next rows = .ok p := by
  unfold rootPositionIn shl64 shr64
  rw [if_pos (by omega), ok_bind]
  dsimp only
  rw [if_pos (by omega), ok_bind, if_pos (by omega), ok_bind, if_pos (by omega), ok_bind]
  exact ⟨_, rfl⟩

theorem transformRows_total {n next : Nat} (hn : n ≤ 2 ^ 62) : ∀ (k row : Nat) (l : List Nat), row + k ≤ numRows n →
    ∃ sws cols, transformRows n next k row l = .ok (sws, cols) ∧ sws.length = cols.length ∧ cols.length ≤ k := by
  have hR := numRows_le_62 hn
  obtain ⟨-, -, -, -, -, -, -, -, h1, h2⟩ := C06_positions n hn 0
  intro k
  induction k with
  | zero => intro row l _; exact ⟨_, _, rfl, rfl, le_rfl⟩
  | succ k ih =>
    intro row l h
    rw [transformRows]
    cases hl : l.getLast? with
    | none => exact ⟨_, _, rfl, rfl, by simp⟩
    | some last =>
      obtain ⟨b, hb⟩ := h1 row (by omega)
      obtain ⟨p, hp⟩ := h2 row (by omega)
      simp only [hb, hp, ok_bind]
      set popped := b && last == p
      set ts := if popped then l.dropLast else l
      set rp := b && !popped
      obtain ⟨ps, ws, e1, e2⟩ := nextRow_total hn _ ts 0 le_rfl
      have hws : decide (ts.length % 2 ≠ 0) = true → ws.length % 2 = 1 := by
        intro h; simp at h; omega
      obtain ⟨x, hx⟩ : ∃ x, computeNextRowTargets n ts (decide (ts.length % 2 ≠ 0)) rp = .ok (x, ws) := by
        unfold computeNextRowTargets
        rw [e1, ok_bind]
        dsimp only
        split
        · rename_i hc
          have : decide (ts.length % 2 ≠ 0) = true := by simp at hc ⊢; exact hc.1
          have := hws this
          cases hw : ws.getLast? with
          | none => rw [List.getLast?_eq_none_iff.1 hw] at this; simp at this
          | some t =>
            obtain ⟨q, hq⟩ := parent_total hn t
            simp only [hq, ok_bind]
            exact ⟨_, rfl⟩
        · exact ⟨_, rfl⟩
      obtain ⟨sw, hsw⟩ := makeSwaps_total (decide (ts.length % 2 ≠ 0)) rp p _ ws le_rfl hws
      obtain ⟨col, hcol⟩ : ∃ c, makeCollapse n ws (decide (ts.length % 2 ≠ 0)) rp row next = .ok c := by
        obtain ⟨d, hd⟩ := rootPositionIn_total (next := next) (show row ≤ numRows n by omega) hR
        unfold makeCollapse
        rw [hd, ok_bind]
        simp only [hp, ok_bind]
        split
        · exact ⟨_, rfl⟩
        · split
          · rename_i hc
            have : decide (ts.length % 2 ≠ 0) = true := by simp at hc ⊢; exact hc.1
            have := hws this
            cases hw : ws.getLast? with
            | none => rw [List.getLast?_eq_none_iff.1 hw] at this; simp at this
            | some t => exact ⟨_, rfl⟩
          · exact ⟨_, rfl⟩
      obtain ⟨sws, cols, g1, g2, g3⟩ := ih (row + 1) (sortU64 x) (by omega)
      refine ⟨sw :: sws, col :: cols, ?_, by simp [g2], by simp [g3]⟩
      rw [hx, ok_bind]
      dsimp only
      rw [hsw, ok_bind, hcol, ok_bind, g1, ok_bind]
      rfl

theorem swapIfDescendant_total {n : Nat} (hn : n ≤ 2 ^ 62) (s c : Swap) {a b : Nat} (ha : a ≤ numRows n) (hb : b < a) :
    ∃ c', swapIfDescendant n s c a b = .ok c' := by
  have hR := numRows_le_62 hn
  obtain ⟨-, -, -, -, -, -, h1, -⟩ := C06_positions n hn c.dst
  have hd : (a + 256 - b) % 256 = a - b := by omega
  obtain ⟨q, hq⟩ := h1 (a - b) (by omega)
  unfold swapIfDescendant
  simp only [hd, hq, ok_bind]
  split
  · unfold shl64
    rw [if_pos (by omega), ok_bind]
    exact ⟨_, rfl⟩
  · exact ⟨_, rfl⟩

theorem swapInRow_total {n : Nat} (hn : n ≤ 2 ^ 62) (s : Swap) {a : Nat} (ha : a ≤ numRows n) : ∀ (cs : List Swap) (b : Nat),
    ∃ cs', swapInRow n s a b cs = .ok cs' ∧ cs'.length = cs.length := by
  intro cs
  induction cs with
  | nil => intro b; exact ⟨_, rfl, rfl⟩
  | cons c cs ih =>
    intro b
    rw [swapInRow]
    by_cases hb : b < a
    · obtain ⟨c', e⟩ := swapIfDescendant_total hn s c ha hb
      obtain ⟨cs', e1, e2⟩ := ih (b + 1)
      simp only [if_pos hb, e, e1, ok_bind]
      split
      · exact ⟨_, rfl, by simp [e2]⟩
      · exact ⟨_, rfl, by simp [e2]⟩
    · rw [if_neg hb]; exact ⟨_, rfl, rfl⟩

theorem swapsInRow_total {n : Nat} (hn : n ≤ 2 ^ 62) {a : Nat} (ha : a ≤ numRows n) : ∀ (ss cs : List Swap),
    ∃ cs', swapsInRow n a ss cs = .ok cs' ∧ cs'.length = cs.length := by
  intro ss
  induction ss with
  | nil => intro cs; exact ⟨_, rfl, rfl⟩
  | cons s ss ih =>
    intro cs
    obtain ⟨c1, e1, f1⟩ := swapInRow_total hn s ha cs 0
    obtain ⟨c2, e2, f2⟩ := ih c1
    exact ⟨c2, by rw [swapsInRow, e1, ok_bind, e2], by rw [f2, f1]⟩

theorem vecAt_total {α : Type} {v : List α} {i : Nat} (h : i < v.length) : ∃ x, vecAt v i = .ok x := by
  unfold vecAt
  rw [List.getElem?_eq_getElem h]
  exact ⟨_, rfl⟩

theorem convertLoop_total {n : Nat} (hn : n ≤ 2 ^ 62) (sws : List (List Swap)) : ∀ (row : Nat) (cs : List Swap), row ≤ numRows n →
    row < cs.length → sws.length = cs.length → ∃ cs', convertLoop n sws row cs = .ok cs' ∧ cs'.length = cs.length := by
  intro row
  induction row with
  | zero => intro cs _ _ _; exact ⟨_, rfl, rfl⟩
  | succ row ih =>
    intro cs h1 h2 h3
    obtain ⟨rs, e1⟩ := vecAt_total (v := sws) (i := row + 1) (by omega)
    obtain ⟨c1, e2, f2⟩ := swapsInRow_total hn (a := row + 1) (by omega) rs cs
    obtain ⟨col, e3⟩ := vecAt_total (v := c1) (i := row + 1) (by omega)
    obtain ⟨c2, e4, f4⟩ := swapInRow_total hn col (a := row + 1) (by omega) c1 0
    rw [convertLoop, e1, ok_bind, e2, ok_bind, e3, ok_bind, e4]
    split
    · obtain ⟨c3, e5, f5⟩ := ih c2 (by omega) (by omega) (by omega)
      exact ⟨c3, by rw [ok_bind]; exact e5, by omega⟩
    · obtain ⟨c3, e5, f5⟩ := ih c1 (by omega) (by omega) (by omega)
      exact ⟨c3, by rw [pure_ok, ok_bind]; exact e5, by omega⟩

theorem appendCollapses_total : ∀ (sws : List (List Swap)) (cs : List Swap), sws.length = cs.length →
    ∃ r, appendCollapses sws cs = .ok r := by
  intro sws
  induction sws with
  | nil =>
    intro cs h
    have : cs = [] := List.eq_nil_of_length_eq_zero (by simpa using h.symm)
    subst this
    exact ⟨_, rfl⟩
  | cons s sws ih =>
    intro cs h
    cases cs with
    | nil => simp at h
    | cons c cs =>
      obtain ⟨r, e⟩ := ih cs (by simpa using h)
      exact ⟨_, by rw [appendCollapses, e, ok_bind]; rfl⟩

theorem transform_total {n : Nat} (hn : n ≤ 2 ^ 62) (l : List Nat) : ∃ s, transform n l = .ok s := by
  obtain ⟨sws, cols, e1, e2, e3⟩ := transformRows_total (next := sub64 n l.length) hn (numRows n) 0 l (by omega)
  unfold transform convertCollapses
  rw [e1, ok_bind]
  dsimp only
  split
  · exact ⟨_, rfl⟩
  · obtain ⟨c1, f1, f2⟩ := convertLoop_total hn sws (cols.length - 1) cols (by omega) (by omega) e2
    rw [f1, ok_bind]
    exact appendCollapses_total _ _ (by omega)

theorem toLeaves_total {n : Nat} (hn : n ≤ 2 ^ 62) (s : Swap) : ∃ s', toLeaves n s = .ok s' := by
  have hR := numRows_le_62 hn
  obtain ⟨-, ⟨row, e1, e2⟩, -, -, -, -, -, h1, -⟩ := C06_positions n hn s.src
  obtain ⟨-, -, -, -, -, -, -, h2, -⟩ := C06_positions n hn s.dst
  obtain ⟨a, ha⟩ := h1 row (by omega)
  obtain ⟨b, hb⟩ := h2 row (by omega)
  unfold toLeaves
  rw [e1, ok_bind]
  split
  · exact ⟨_, rfl⟩
  · rw [ha, ok_bind, hb, ok_bind]
    unfold shl64
    rw [if_pos (by omega), ok_bind]
    exact ⟨_, rfl⟩

theorem undoRow_total {n : Nat} (hn : n ≤ 2 ^ 62) : ∀ l, ∃ r, undoRow n l = .ok r := by
  intro l
  induction l with
  | nil => exact ⟨_, rfl⟩
  | cons s l ih =>
    obtain ⟨r, e⟩ := ih
    obtain ⟨s', e'⟩ := toLeaves_total hn s
    rw [undoRow]
    split
    · exact ⟨r, e⟩
    · exact ⟨_, by rw [e', ok_bind, e, ok_bind]; rfl⟩

theorem undoRows_total {n : Nat} (hn : n ≤ 2 ^ 62) : ∀ l, ∃ r, undoRows n l = .ok r := by
  intro l
  induction l with
  | nil => exact ⟨_, rfl⟩
  | cons s l ih =>
    obtain ⟨r, e⟩ := ih
    obtain ⟨s', e'⟩ := undoRow_total hn s
    exact ⟨_, by rw [undoRows, e', ok_bind, e, ok_bind]; rfl⟩

theorem undoTransform_total {n : Nat} (hn : n ≤ 2 ^ 62) (l : List Nat) : ∃ s, undoTransform n l = .ok s := by
  obtain ⟨s, e⟩ := transform_total hn l
  obtain ⟨r, e'⟩ := undoRows_total hn s
  exact ⟨r, by unfold undoTransform; rw [e, ok_bind, e']⟩

end St
end Utreexo
