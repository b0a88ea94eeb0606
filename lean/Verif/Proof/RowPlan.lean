import Verif.Proof.Perm
import Verif.Proof.ProofPos
import Mathlib.Data.List.Nodup

/-!
# One row of the remove transformation, in index coordinates

`D` are the deleted indices of a row of `2 * m + b` nodes (`b = 1` when the row has a root, which
then has index `2 * m`). The transformation of the row leaves whole subtrees of the next row
deleted.
-/

namespace Utreexo
open Spec

/-! ## Siblings -/

theorem sb_div (i : Nat) : (i ^^^ 1) / 2 = i / 2 := by
  rw [xor_one_cases]; split <;> omega

theorem sb_sb (i : Nat) : (i ^^^ 1) ^^^ 1 = i := by
  rw [Nat.xor_assoc]; simp

theorem sb_ne (i : Nat) : i ^^^ 1 ≠ i := by
  rw [xor_one_cases]; split <;> omega

theorem sb_lt {i m : Nat} : i ^^^ 1 < 2 * m ↔ i < 2 * m := by
  rw [xor_one_cases]; split <;> omega

theorem half_eq {a b : Nat} : a / 2 = b / 2 ↔ a = b ∨ a = b ^^^ 1 := by
  rw [xor_one_cases]; split <;> omega

theorem sb_inj {a b : Nat} : a ^^^ 1 = b ^^^ 1 ↔ a = b :=
  ⟨fun h => by rw [← sb_sb a, h, sb_sb], fun h => by rw [h]⟩

theorem sb_eq_comm {a b : Nat} : a ^^^ 1 = b ↔ a = b ^^^ 1 :=
  ⟨fun h => by rw [← h, sb_sb], fun h => by rw [h, sb_sb]⟩

/-! ## The next row's targets -/

/-- Index version of `nextRowLoop`. -/
def idxNext : List Nat → Nat → List Nat × List Nat
  | [], _ => ([], [])
  | [a], cnt => if (cnt + 1) % 2 = 0 then ([a / 2], [a]) else ([], [a])
  | a :: b :: rest, cnt =>
    if a ||| 1 = b then (a / 2 :: (idxNext rest cnt).1, (idxNext rest cnt).2)
    else if (cnt + 1) % 2 = 0 then
      (a / 2 :: (idxNext (b :: rest) (cnt + 1)).1, a :: (idxNext (b :: rest) (cnt + 1)).2)
    else ((idxNext (b :: rest) (cnt + 1)).1, a :: (idxNext (b :: rest) (cnt + 1)).2)

/-- Every second element, starting with the second if `c` is even. -/
def alt : Nat → List Nat → List Nat
  | _, [] => []
  | c, w :: ws => if (c + 1) % 2 = 0 then w :: alt (c + 1) ws else alt (c + 1) ws

theorem alt_congr {c c' : Nat} (h : c % 2 = c' % 2) (l : List Nat) : alt c l = alt c' l := by
  induction l generalizing c c' with
  | nil => rfl
  | cons w ws ih =>
    simp only [alt]
    rw [ih (c := c + 1) (c' := c' + 1) (by omega)]
    by_cases hc : (c + 1) % 2 = 0
    · rw [if_pos hc, if_pos (by omega)]
    · rw [if_neg hc, if_neg (by omega)]

theorem alt_subset {c : Nat} {l : List Nat} {x : Nat} (h : x ∈ alt c l) : x ∈ l := by
  induction l generalizing c with
  | nil => simp [alt] at h
  | cons w ws ih =>
    simp only [alt] at h
    split at h
    · rcases List.mem_cons.1 h with rfl | h
      · simp
      · exact List.mem_cons_of_mem _ (ih h)
    · exact List.mem_cons_of_mem _ (ih h)

/-- What `idxNext` computes on an ascending list. -/
structure NextSpec (l : List Nat) (cnt : Nat) : Prop where
  mem_ws : ∀ x, x ∈ (idxNext l cnt).2 ↔ x ∈ l ∧ x ^^^ 1 ∉ l
  sorted_ws : (idxNext l cnt).2.Pairwise (· < ·)
  mem_ps : ∀ y, y ∈ (idxNext l cnt).1 ↔
    (∃ a ∈ l, a / 2 = y ∧ a ^^^ 1 ∈ l) ∨ ∃ w ∈ alt cnt (idxNext l cnt).2, w / 2 = y
  sorted_ps : (idxNext l cnt).1.Pairwise (· < ·)
  count : 2 * (idxNext l cnt).1.length + (cnt + (idxNext l cnt).2.length) % 2 = l.length + cnt % 2

theorem nextSpec : ∀ (k : Nat) (l : List Nat) (cnt : Nat), l.length ≤ k → l.Pairwise (· < ·) →
    NextSpec l cnt := by
  intro k
  induction k with
  | zero =>
    intro l cnt hl _
    have : l = [] := List.length_eq_zero_iff.1 (by omega)
    subst this
    exact ⟨by simp [idxNext], by simp [idxNext], by simp [idxNext, alt], by simp [idxNext],
      by simp [idxNext]⟩
  | succ k ih =>
    intro l cnt hl hs
    match l, hl, hs with
    | [], _, _ =>
      exact ⟨by simp [idxNext], by simp [idxNext], by simp [idxNext, alt], by simp [idxNext],
        by simp [idxNext]⟩
    | [a], _, _ =>
      by_cases hc : (cnt + 1) % 2 = 0
      · have e : idxNext [a] cnt = ([a / 2], [a]) := by simp [idxNext, hc]
        refine ⟨?_, by simp [e], ?_, by simp [e], ?_⟩
        · intro x; rw [e]
          simp only [List.mem_singleton]
          constructor
          · rintro rfl; exact ⟨rfl, sb_ne _⟩
          · exact fun h => h.1
        · intro y; rw [e]
          simp only [List.mem_singleton, alt, hc, if_true]
          constructor
          · rintro rfl; exact .inr ⟨a, rfl, rfl⟩
          · rintro (⟨x, rfl, _, h⟩ | ⟨w, rfl, rfl⟩)
            · exact absurd h (sb_ne _)
            · rfl
        · rw [e]; simp; omega
      · have e : idxNext [a] cnt = ([], [a]) := by simp [idxNext, hc]
        refine ⟨?_, by simp [e], ?_, by simp [e], ?_⟩
        · intro x; rw [e]
          simp only [List.mem_singleton]
          constructor
          · rintro rfl; exact ⟨rfl, sb_ne _⟩
          · exact fun h => h.1
        · intro y; rw [e]
          simp only [List.mem_singleton, alt, hc, if_false]
          constructor
          · intro h; simp at h
          · rintro (⟨x, rfl, _, h⟩ | ⟨w, h, _⟩)
            · exact absurd h (sb_ne _)
            · simp at h
        · rw [e]; simp; omega
    | a :: b :: rest, hl, hs =>
      have hab : a < b := by simpa using (List.pairwise_cons.1 hs).1 b (by simp)
      have har : ∀ x ∈ rest, a < x := fun x hx => (List.pairwise_cons.1 hs).1 x (by simp [hx])
      have hs2 := (List.pairwise_cons.1 hs).2
      have hbr : ∀ x ∈ rest, b < x := (List.pairwise_cons.1 hs2).1
      have hs3 := (List.pairwise_cons.1 hs2).2
      by_cases hsib : a ||| 1 = b
      · have e : idxNext (a :: b :: rest) cnt =
            (a / 2 :: (idxNext rest cnt).1, (idxNext rest cnt).2) := by
          rw [idxNext, if_pos hsib]
        obtain ⟨hp, hbe⟩ := (or_one_iff_of_lt hab).1 hsib
        have hsa : a ^^^ 1 = b := by rw [xor_one_cases, if_pos hp, hbe]
        have hsb : b ^^^ 1 = a := by rw [← hsa, sb_sb]
        have I := ih rest cnt (by simp at hl; omega) hs3
        have hrest : ∀ x ∈ rest, x ^^^ 1 ∈ a :: b :: rest ↔ x ^^^ 1 ∈ rest := by
          intro x hx
          have h1 := har x hx; have h2 := hbr x hx
          have h3 : x ^^^ 1 ≠ a := fun h => by rw [sb_eq_comm, hsa] at h; omega
          have h4 : x ^^^ 1 ≠ b := fun h => by rw [sb_eq_comm, hsb] at h; omega
          simp [h3, h4]
        refine ⟨?_, by rw [e]; exact I.sorted_ws, ?_, ?_, ?_⟩
        · intro x; rw [e]
          show x ∈ (idxNext rest cnt).2 ↔ _
          rw [I.mem_ws x]
          constructor
          · rintro ⟨h1, h2⟩; exact ⟨by simp [h1], fun h => h2 ((hrest x h1).1 h)⟩
          · rintro ⟨h1, h2⟩
            rcases List.mem_cons.1 h1 with rfl | h1
            · rw [hsa] at h2; simp at h2
            rcases List.mem_cons.1 h1 with rfl | h1
            · rw [hsb] at h2; simp at h2
            exact ⟨h1, fun h => h2 ((hrest x h1).2 h)⟩
        · intro y; rw [e]
          show y ∈ a / 2 :: (idxNext rest cnt).1 ↔ _ ∨ ∃ w ∈ alt cnt (idxNext rest cnt).2, w / 2 = y
          rw [List.mem_cons, I.mem_ps y]
          constructor
          · rintro (rfl | ⟨x, hx, h1, h2⟩ | h)
            · exact .inl ⟨a, by simp, rfl, by rw [hsa]; simp⟩
            · exact .inl ⟨x, by simp [hx], h1, (hrest x hx).2 h2⟩
            · exact .inr h
          · rintro (⟨x, hx, h1, h2⟩ | h)
            · rcases List.mem_cons.1 hx with rfl | hx
              · exact .inl h1.symm
              rcases List.mem_cons.1 hx with rfl | hx
              · left; rw [← h1, ← hsa, sb_div]
              · exact .inr (.inl ⟨x, hx, h1, (hrest x hx).1 h2⟩)
            · exact .inr (.inr h)
        · rw [e]
          refine List.pairwise_cons.2 ⟨?_, I.sorted_ps⟩
          intro y hy
          have : ∃ x ∈ rest, x / 2 = y := by
            rcases (I.mem_ps y).1 hy with ⟨x, hx, h1, _⟩ | ⟨w, hw, h1⟩
            · exact ⟨x, hx, h1⟩
            · exact ⟨w, ((I.mem_ws w).1 (alt_subset hw)).1, h1⟩
          obtain ⟨x, hx, rfl⟩ := this
          have := hbr x hx
          omega
        · rw [e]; simp only [List.length_cons]
          have := I.count; omega
      · have I := ih (b :: rest) (cnt + 1) (by simp at hl ⊢; omega) hs2
        have hna : a ^^^ 1 ∉ a :: b :: rest := by
          intro h
          rcases List.mem_cons.1 h with h | h
          · exact sb_ne a h
          · rw [xor_one_cases] at h
            split at h
            · rename_i hp
              rcases List.mem_cons.1 h with h | h
              · exact hsib ((or_one_iff_of_lt hab).2 ⟨hp, h.symm⟩)
              · have := hbr _ h; omega
            · rcases List.mem_cons.1 h with h | h
              · omega
              · have := hbr _ h; omega
        have hrest : ∀ x ∈ b :: rest, x ^^^ 1 ∈ a :: b :: rest ↔ x ^^^ 1 ∈ b :: rest := by
          intro x hx
          have h3 : x ^^^ 1 ≠ a := fun h => by
            rw [sb_eq_comm] at h
            exact hna (h ▸ List.mem_cons_of_mem _ hx)
          rw [List.mem_cons]
          exact ⟨fun h => h.resolve_left h3, .inr⟩
        have hws : (idxNext (a :: b :: rest) cnt).2 = a :: (idxNext (b :: rest) (cnt + 1)).2 := by
          rw [idxNext, if_neg hsib]; split <;> rfl
        have hmw : ∀ x, x ∈ (idxNext (a :: b :: rest) cnt).2 ↔
            x ∈ a :: b :: rest ∧ x ^^^ 1 ∉ a :: b :: rest := by
          intro x; rw [hws, List.mem_cons, I.mem_ws x]
          constructor
          · rintro (rfl | ⟨h1, h2⟩)
            · exact ⟨by simp, hna⟩
            · exact ⟨List.mem_cons_of_mem _ h1, fun h => h2 ((hrest x h1).1 h)⟩
          · rintro ⟨h1, h2⟩
            rcases List.mem_cons.1 h1 with rfl | h1
            · exact .inl rfl
            · exact .inr ⟨h1, fun h => h2 ((hrest x h1).2 h)⟩
        have hsw : (idxNext (a :: b :: rest) cnt).2.Pairwise (· < ·) := by
          rw [hws]
          refine List.pairwise_cons.2 ⟨fun x hx => ?_, I.sorted_ws⟩
          exact (List.pairwise_cons.1 hs).1 x ((I.mem_ws x).1 hx).1
        have hpairs : ∀ y, (∃ x ∈ a :: b :: rest, x / 2 = y ∧ x ^^^ 1 ∈ a :: b :: rest) ↔
            ∃ x ∈ b :: rest, x / 2 = y ∧ x ^^^ 1 ∈ b :: rest := by
          intro y
          constructor
          · rintro ⟨x, hx, h1, h2⟩
            rcases List.mem_cons.1 hx with rfl | hx
            · exact absurd h2 hna
            · exact ⟨x, hx, h1, (hrest x hx).1 h2⟩
          · rintro ⟨x, hx, h1, h2⟩
            exact ⟨x, List.mem_cons_of_mem _ hx, h1, (hrest x hx).2 h2⟩
        by_cases hc : (cnt + 1) % 2 = 0
        · have e : (idxNext (a :: b :: rest) cnt).1 = a / 2 :: (idxNext (b :: rest) (cnt + 1)).1 := by
            rw [idxNext, if_neg hsib, if_pos hc]
          refine ⟨hmw, hsw, ?_, ?_, ?_⟩
          · intro y
            rw [e, hws, hpairs y, List.mem_cons, I.mem_ps y]
            simp only [alt, hc, if_true, List.mem_cons]
            constructor
            · rintro (rfl | h | ⟨w, h1, h2⟩)
              · exact .inr ⟨a, .inl rfl, rfl⟩
              · exact .inl h
              · exact .inr ⟨w, .inr h1, h2⟩
            · rintro (h | ⟨w, rfl | h1, h2⟩)
              · exact .inr (.inl h)
              · exact .inl h2.symm
              · exact .inr (.inr ⟨w, h1, h2⟩)
          · rw [e]
            refine List.pairwise_cons.2 ⟨?_, I.sorted_ps⟩
            intro y hy
            have : ∃ x ∈ b :: rest, x / 2 = y := by
              rcases (I.mem_ps y).1 hy with ⟨x, hx, h1, _⟩ | ⟨w, hw, h1⟩
              · exact ⟨x, hx, h1⟩
              · exact ⟨w, ((I.mem_ws w).1 (alt_subset hw)).1, h1⟩
            obtain ⟨x, hx, rfl⟩ := this
            have h1 : a < x := (List.pairwise_cons.1 hs).1 x hx
            have h2 : a / 2 ≠ x / 2 := by
              intro h
              rcases half_eq.1 h with h | h
              · omega
              · apply hna; rw [sb_eq_comm.2 h]; exact List.mem_cons_of_mem _ hx
            omega
          · have := I.count
            rw [e, hws]; simp only [List.length_cons] at this ⊢; omega
        · have e : (idxNext (a :: b :: rest) cnt).1 = (idxNext (b :: rest) (cnt + 1)).1 := by
            rw [idxNext, if_neg hsib, if_neg hc]
          refine ⟨hmw, hsw, ?_, by rw [e]; exact I.sorted_ps, ?_⟩
          · intro y
            rw [e, hws, hpairs y, I.mem_ps y]
            simp only [alt, hc, if_false]
          · have := I.count
            rw [e, hws]; simp only [List.length_cons] at this ⊢; omega

/-! ## Pairing up the targets without sibling -/

/-- The swaps of consecutive targets without siblings. -/
def idxPairs : List Nat → List (Nat × Nat)
  | a :: b :: rest => (b ^^^ 1, a) :: idxPairs rest
  | _ => []

/-- The target left over when their number is odd. -/
def oddLast (ws : List Nat) : List Nat := if ws.length % 2 = 0 then [] else [ws.getLastD 0]

theorem oddLast_cons (a b : Nat) (rest : List Nat) : oddLast (a :: b :: rest) = oddLast rest := by
  unfold oddLast
  simp only [List.length_cons]
  by_cases h : rest.length % 2 = 0
  · rw [if_pos (by omega), if_pos h]
  · rw [if_neg (by omega), if_neg h]
    cases rest with
    | nil => simp at h
    | cons c rest => rfl

theorem idxPairs_alt : ∀ (k : Nat) (ws : List Nat), ws.length ≤ k →
    (idxPairs ws).map (fun p => p.1 ^^^ 1) = alt 0 ws := by
  intro k
  induction k with
  | zero => intro ws h; have : ws = [] := List.length_eq_zero_iff.1 (by omega)
            subst this; rfl
  | succ k ih =>
    intro ws h
    match ws, h with
    | [], _ => rfl
    | [a], _ => rfl
    | a :: b :: rest, h =>
      simp only [idxPairs, List.map_cons, sb_sb]
      rw [ih rest (by simp at h; omega)]
      simp only [alt]
      simp
      exact alt_congr (by omega) rest

theorem idxPairs_perm : ∀ (k : Nat) (ws : List Nat), ws.length ≤ k →
    List.Perm ws ((idxPairs ws).map Prod.snd ++ (alt 0 ws ++ oddLast ws)) := by
  intro k
  induction k with
  | zero => intro ws h; have : ws = [] := List.length_eq_zero_iff.1 (by omega)
            subst this; exact .refl _
  | succ k ih =>
    intro ws h
    match ws, h with
    | [], _ => exact .refl _
    | [a], _ => exact .refl _
    | a :: b :: rest, h =>
      have I := ih rest (by simp at h; omega)
      have e : alt 0 (a :: b :: rest) = b :: alt 0 rest := by
        simp only [alt]; simp; exact alt_congr (by omega) rest
      rw [e, oddLast_cons]
      simp only [idxPairs, List.map_cons, List.cons_append]
      refine .cons a ?_
      exact (I.cons b).trans List.perm_middle.symm

/-! ## The row -/

/-- Everything the later proofs need about one row. `S` are the swaps, `X` the source of the
collapse. `E x`: slot `x` lies below a deleted node of the next row or is the row's root. -/
structure RowOK (m : Nat) (b : Bool) (D D' : List Nat) (S : List (Nat × Nat)) (X : Option Nat) : Prop where
  sortedD : D.Pairwise (· < ·)
  boundD : ∀ i ∈ D, i < 2 * m + b.toNat
  sortedD' : D'.Pairwise (· < ·)
  boundD' : ∀ i ∈ D', i < m
  fst : (S.map Prod.fst).Nodup
  snd : (S.map Prod.snd).Nodup
  swaps : ∀ s w, (s, w) ∈ S → w ∈ D ∧ s ∉ D ∧ (s / 2 ∈ D' ∨ (b = true ∧ s = 2 * m)) ∧
    ¬ (w / 2 ∈ D' ∨ (b = true ∧ w = 2 * m))
  rest : ∀ i, (∀ p ∈ S, p.1 ≠ i ∧ p.2 ≠ i) →
    (i ∈ D ↔ (i / 2 ∈ D' ∨ (b = true ∧ i = 2 * m)) ∧ X ≠ some i)
  col : ∀ x, X = some x → (x / 2 ∈ D' ∨ (b = true ∧ x = 2 * m)) ∧ x ∉ D ∧
    (∀ p ∈ S, p.1 ≠ x) ∧ (x = 2 * m ∨ (x < 2 * m ∧ ∀ p ∈ S, p.1 ≠ x ^^^ 1 ∧ p.2 ≠ x ^^^ 1))
  card : 2 * D'.length + b.toNat = D.length + X.toList.length

/-- Deleted targets other than the row's root. -/
def rowTs (m : Nat) (D : List Nat) : List Nat := D.filter (· < 2 * m)

/-- The row has a root that is not deleted. -/
def rowRP (m : Nat) (b : Bool) (D : List Nat) : Bool := b && !decide (2 * m ∈ D)

/-- Swaps of the row. -/
def rowS (m : Nat) (b : Bool) (D : List Nat) : List (Nat × Nat) :=
  let ws := (idxNext (rowTs m D) 0).2
  idxPairs ws ++ (if rowRP m b D then (oddLast ws).map fun w => (2 * m, w) else [])

/-- Source of the collapse of the row. -/
def rowX (m : Nat) (b : Bool) (D : List Nat) : Option Nat :=
  let ws := (idxNext (rowTs m D) 0).2
  if rowRP m b D then (if ws.length % 2 = 0 then some (2 * m) else none)
  else (if ws.length % 2 = 0 then none else some (ws.getLastD 0 ^^^ 1))

/-- Next row's deletions, unsorted. -/
def rowNext (m : Nat) (b : Bool) (D : List Nat) : List Nat :=
  let q := idxNext (rowTs m D) 0
  q.1 ++ (if rowRP m b D then [] else (oddLast q.2).map (· / 2))

theorem mem_insertSorted (x a : Nat) (l : List Nat) : a ∈ St.insertSorted x l ↔ a = x ∨ a ∈ l := by
  induction l with
  | nil => simp [St.insertSorted]
  | cons y ys ih =>
    simp only [St.insertSorted]
    split
    · simp
    · simp only [List.mem_cons, ih]; tauto

theorem mem_sortU64 (a : Nat) (l : List Nat) : a ∈ St.sortU64 l ↔ a ∈ l := by
  induction l with
  | nil => simp [St.sortU64]
  | cons y ys ih => simp [St.sortU64, mem_insertSorted, ih]

theorem length_insertSorted (x : Nat) (l : List Nat) : (St.insertSorted x l).length = l.length + 1 := by
  induction l with
  | nil => rfl
  | cons y ys ih => simp only [St.insertSorted]; split <;> simp [ih]

theorem length_sortU64 (l : List Nat) : (St.sortU64 l).length = l.length := by
  induction l with
  | nil => rfl
  | cons y ys ih => simp [St.sortU64, length_insertSorted, ih]

theorem insertSorted_sorted {x : Nat} {l : List Nat} (h : l.Pairwise (· < ·)) (hx : x ∉ l) :
    (St.insertSorted x l).Pairwise (· < ·) := by
  induction l with
  | nil => simp [St.insertSorted]
  | cons y ys ih =>
    obtain ⟨h1, h2⟩ := List.pairwise_cons.1 h
    simp only [List.mem_cons, not_or] at hx
    simp only [St.insertSorted]
    split
    · refine List.pairwise_cons.2 ⟨fun a ha => ?_, h⟩
      rcases List.mem_cons.1 ha with rfl | ha
      · omega
      · have := h1 a ha; omega
    · refine List.pairwise_cons.2 ⟨fun a ha => ?_, ih h2 hx.2⟩
      rcases (mem_insertSorted _ _ _).1 ha with rfl | ha
      · omega
      · exact h1 a ha

theorem sortU64_sorted {l : List Nat} (h : l.Nodup) : (St.sortU64 l).Pairwise (· < ·) := by
  induction l with
  | nil => simp [St.sortU64]
  | cons y ys ih =>
    obtain ⟨h1, h2⟩ := List.nodup_cons.1 h
    exact insertSorted_sorted (ih h2) (fun hm => h1 ((mem_sortU64 _ _).1 hm))

theorem sorted_nodup {l : List Nat} (h : l.Pairwise (· < ·)) : l.Nodup :=
  h.imp (fun h => Nat.ne_of_lt h)

theorem rowTs_length {m : Nat} {b : Bool} {D : List Nat} (hs : D.Pairwise (· < ·))
    (hb : ∀ i ∈ D, i < 2 * m + b.toNat) :
    D.length = (rowTs m D).length + (decide (2 * m ∈ D)).toNat := by
  unfold rowTs
  induction D with
  | nil => rfl
  | cons a D ih =>
    obtain ⟨h1, h2⟩ := List.pairwise_cons.1 hs
    have I := ih h2 (fun i hi => hb i (by simp [hi]))
    have hab := hb a (by simp)
    by_cases ha : a < 2 * m
    · rw [List.filter_cons_of_pos (by simpa using ha)]
      simp only [List.length_cons, List.mem_cons]
      rw [I]
      have : 2 * m ≠ a := by omega
      simp [this]; omega
    · have hb1 : b.toNat ≤ 1 := by cases b <;> simp
      have ha2 : a = 2 * m := by omega
      rw [List.filter_cons_of_neg (by simpa using ha)]
      have hD : D = [] := by
        cases D with
        | nil => rfl
        | cons c D =>
          have := h1 c (by simp); have := hb c (by simp); omega
      subst hD; subst ha2; simp

theorem rowOK (m : Nat) (b : Bool) (D : List Nat) (hs : D.Pairwise (· < ·))
    (hb : ∀ i ∈ D, i < 2 * m + b.toNat) :
    RowOK m b D (St.sortU64 (rowNext m b D)) (rowS m b D) (rowX m b D) := by
  have hb1 : b.toNat ≤ 1 := by cases b <;> simp
  have hsT : (rowTs m D).Pairwise (· < ·) := hs.filter _
  have N := nextSpec _ (rowTs m D) 0 (Nat.le_refl _) hsT
  have hT : ∀ i, i ∈ rowTs m D ↔ i ∈ D ∧ i < 2 * m := by intro i; simp [rowTs]
  have hlen := rowTs_length hs hb
  simp only [rowS, rowX, rowNext]
  generalize hT' : rowTs m D = T at *
  generalize hwe : (idxNext T 0).2 = ws at *
  generalize hpe : (idxNext T 0).1 = ps at *
  have hws : ∀ x, x ∈ ws ↔ x ∈ T ∧ x ^^^ 1 ∉ T := by rw [← hwe]; exact N.mem_ws
  have hwsorted : ws.Pairwise (· < ·) := by rw [← hwe]; exact N.sorted_ws
  have hps : ∀ y, y ∈ ps ↔ (∃ a ∈ T, a / 2 = y ∧ a ^^^ 1 ∈ T) ∨ ∃ w ∈ alt 0 ws, w / 2 = y := by
    rw [← hwe, ← hpe]; exact N.mem_ps
  have hpsorted : ps.Pairwise (· < ·) := by rw [← hpe]; exact N.sorted_ps
  have hcount : 2 * ps.length + ws.length % 2 = T.length := by
    have := N.count; rw [hwe, hpe] at this; omega
  clear N
  have hperm := idxPairs_perm _ ws (Nat.le_refl _)
  have halt := idxPairs_alt _ ws (Nat.le_refl _)
  have hnd := (hperm.nodup_iff).1 (sorted_nodup hwsorted)
  have hmem : ∀ x, x ∈ ws ↔ x ∈ (idxPairs ws).map Prod.snd ∨ x ∈ alt 0 ws ∨ x ∈ oddLast ws := by
    intro x; rw [hperm.mem_iff]; simp
  generalize hA : (idxPairs ws).map Prod.snd = A at *
  generalize hB : alt 0 ws = B at *
  have hCdef : oddLast ws = if ws.length % 2 = 0 then [] else [ws.getLastD 0] := rfl
  generalize hC : oddLast ws = C at *
  obtain ⟨ndA, ndBC, hAdisj⟩ := List.nodup_append.1 hnd
  obtain ⟨ndB, ndC, hBdisj⟩ := List.nodup_append.1 ndBC
  have hAB : ∀ x, x ∈ A → x ∉ B := fun x h1 h2 => hAdisj x h1 x (by simp [h2]) rfl
  have hAC : ∀ x, x ∈ A → x ∉ C := fun x h1 h2 => hAdisj x h1 x (by simp [h2]) rfl
  have hBC : ∀ x, x ∈ B → x ∉ C := fun x h1 h2 => hBdisj x h1 x h2 rfl
  have hAw : ∀ x, x ∈ A → x ∈ ws := fun x h => (hmem x).2 (.inl h)
  have hBw : ∀ x, x ∈ B → x ∈ ws := fun x h => (hmem x).2 (.inr (.inl h))
  have hCw : ∀ x, x ∈ C → x ∈ ws := fun x h => (hmem x).2 (.inr (.inr h))
  have hwT : ∀ x, x ∈ ws → x ∈ T := fun x h => ((hws x).1 h).1
  have hwT' : ∀ x, x ∈ ws → x ^^^ 1 ∉ T := fun x h => ((hws x).1 h).2
  have hTlt : ∀ x, x ∈ T → x < 2 * m := fun x h => ((hT x).1 h).2
  have hTD : ∀ x, x ∈ T → x ∈ D := fun x h => ((hT x).1 h).1
  have hws' : ∀ x, x ∈ ws → x ^^^ 1 ∉ ws := fun x h h' => hwT' x h (hwT _ h')
  -- pairs
  have hfst : ∀ s w, (s, w) ∈ idxPairs ws → s ^^^ 1 ∈ B ∧ w ∈ A := by
    intro s w h
    rw [← halt, ← hA]
    exact ⟨List.mem_map.2 ⟨_, h, rfl⟩, List.mem_map.2 ⟨_, h, rfl⟩⟩
  have hBfst : ∀ v, v ∈ B → ∃ w, (v ^^^ 1, w) ∈ idxPairs ws := by
    intro v h
    rw [← halt] at h
    obtain ⟨⟨s, w⟩, h1, h2⟩ := List.mem_map.1 h
    refine ⟨w, ?_⟩
    rw [← h2, sb_sb]; exact h1
  have hAsnd : ∀ v, v ∈ A → ∃ s, (s, v) ∈ idxPairs ws := by
    intro v h
    rw [← hA] at h
    obtain ⟨⟨s, w⟩, h1, rfl⟩ := List.mem_map.1 h
    exact ⟨s, h1⟩
  have hrp : rowRP m b D = true ↔ b = true ∧ 2 * m ∉ D := by simp [rowRP]
  generalize hrpe : rowRP m b D = rp at *
  -- membership in the next row
  have hD' : ∀ y, y ∈ ps ++ (if rp then [] else C.map (· / 2)) ↔
      (∃ a ∈ T, a / 2 = y ∧ a ^^^ 1 ∈ T) ∨ (∃ w ∈ B, w / 2 = y) ∨ (rp = false ∧ ∃ w ∈ C, w / 2 = y) := by
    intro y
    rw [List.mem_append, hps y]
    cases rp <;> simp [or_assoc]
  have hmemE : ∀ i, i / 2 ∈ ps ++ (if rp then [] else C.map (· / 2)) ↔
      ((i ∈ T ∧ i ^^^ 1 ∈ T) ∨ (i ∈ B ∨ i ^^^ 1 ∈ B) ∨ (rp = false ∧ (i ∈ C ∨ i ^^^ 1 ∈ C))) := by
    intro i
    rw [hD' (i / 2)]
    constructor
    · rintro (⟨a, h1, h2, h3⟩ | ⟨w, h1, h2⟩ | ⟨h0, w, h1, h2⟩)
      · rcases half_eq.1 h2 with rfl | rfl
        · exact .inl ⟨h1, h3⟩
        · rw [sb_sb] at h3; exact .inl ⟨h3, h1⟩
      · rcases half_eq.1 h2 with rfl | rfl
        · exact .inr (.inl (.inl h1))
        · exact .inr (.inl (.inr h1))
      · rcases half_eq.1 h2 with rfl | rfl
        · exact .inr (.inr ⟨h0, .inl h1⟩)
        · exact .inr (.inr ⟨h0, .inr h1⟩)
    · rintro (⟨h1, h2⟩ | (h1 | h1) | ⟨h0, h1 | h1⟩)
      · exact .inl ⟨i, h1, rfl, h2⟩
      · exact .inr (.inl ⟨i, h1, rfl⟩)
      · exact .inr (.inl ⟨_, h1, sb_div i⟩)
      · exact .inr (.inr ⟨h0, i, h1, rfl⟩)
      · exact .inr (.inr ⟨h0, _, h1, sb_div i⟩)
  have hClast : C = [] ∧ ws.length % 2 = 0 ∨ C = [ws.getLastD 0] ∧ ws.length % 2 = 1 := by
    rw [hCdef]; split
    · exact .inl ⟨rfl, by assumption⟩
    · exact .inr ⟨rfl, by omega⟩
  have hndn : (ps ++ (if rp then [] else C.map (· / 2))).Nodup := by
    cases rp with
    | true => simpa using sorted_nodup hpsorted
    | false =>
      simp only [Bool.false_eq_true, if_false]
      rw [List.nodup_append]
      refine ⟨sorted_nodup hpsorted, ?_, ?_⟩
      · rcases hClast with ⟨h, _⟩ | ⟨h, _⟩ <;> rw [h] <;> simp
      · rintro y hy z hz rfl
        obtain ⟨c, hc, rfl⟩ := List.mem_map.1 hz
        rcases (hps _).1 hy with ⟨a, h1, h2, h3⟩ | ⟨w, h1, h2⟩
        · rcases half_eq.1 h2 with rfl | rfl
          · exact hwT' _ (hCw _ hc) h3
          · exact hwT' _ (hCw _ hc) h1
        · rcases half_eq.1 h2 with rfl | rfl
          · exact hBC _ h1 hc
          · exact hws' _ (hCw _ hc) (hBw _ h1)
  have hbnd : ∀ i, i / 2 ∈ ps ++ (if rp then [] else C.map (· / 2)) → i < 2 * m := by
    intro i h
    rcases (hmemE i).1 h with ⟨h1, _⟩ | (h1 | h1) | ⟨_, h1 | h1⟩
    · exact hTlt _ h1
    · exact hTlt _ (hwT _ (hBw _ h1))
    · exact sb_lt.1 (hTlt _ (hwT _ (hBw _ h1)))
    · exact hTlt _ (hwT _ (hCw _ h1))
    · exact sb_lt.1 (hTlt _ (hwT _ (hCw _ h1)))
  have hDT : ∀ i, i ∈ D → i ≠ 2 * m → i ∈ T := by
    intro i h h'; have := hb i h; exact (hT i).2 ⟨h, by omega⟩
  have hmemS : ∀ s w, (s, w) ∈ idxPairs ws ++ (if rp then C.map (fun w => (2 * m, w)) else []) ↔
      (s, w) ∈ idxPairs ws ∨ (rp = true ∧ s = 2 * m ∧ w ∈ C) := by
    intro s w
    rw [List.mem_append]
    cases rp
    · simp
    · simp only [if_true, true_and, List.mem_map, Prod.mk.injEq]
      constructor
      · rintro (h | ⟨a, h1, h2, h3⟩)
        · exact .inl h
        · exact .inr ⟨h2.symm, h3 ▸ h1⟩
      · rintro (h | ⟨h1, h2⟩)
        · exact .inl h
        · exact .inr ⟨w, h2, h1.symm, rfl⟩
  refine ⟨hs, hb, sortU64_sorted hndn, ?_, ?_, ?_, ?_, ?_, ?_, ?_⟩
  · intro i hi
    rw [mem_sortU64] at hi
    have := hbnd (2 * i) (by rw [show 2 * i / 2 = i by omega]; exact hi)
    omega
  · -- first components distinct
    have e : (idxPairs ws).map Prod.fst = B.map (· ^^^ 1) := by
      rw [← halt, List.map_map]
      apply List.map_congr_left
      intro p _; simp [sb_sb]
    have ndF : ((idxPairs ws).map Prod.fst).Nodup := by
      rw [e]; exact List.Nodup.map (fun a b h => sb_inj.1 h) ndB
    rw [List.map_append, List.nodup_append]
    refine ⟨ndF, ?_, ?_⟩
    · cases rp
      · simp
      · rcases hClast with ⟨h, _⟩ | ⟨h, _⟩ <;> rw [h] <;> simp
    · rintro x hx y hy rfl
      rw [e] at hx
      obtain ⟨v, hv, rfl⟩ := List.mem_map.1 hx
      have h1 := sb_lt.2 (hTlt _ (hwT _ (hBw _ hv)))
      cases rp
      · simp at hy
      · simp at hy; omega
  · rw [List.map_append, List.nodup_append, hA]
    refine ⟨ndA, ?_, ?_⟩
    · cases rp
      · simp
      · rcases hClast with ⟨h, _⟩ | ⟨h, _⟩ <;> rw [h] <;> simp
    · rintro x hx y hy rfl
      cases rp
      · simp at hy
      · simp at hy; exact hAC _ hx hy
  · intro s w h
    rw [mem_sortU64, mem_sortU64, hmemE, hmemE]
    rcases (hmemS s w).1 h with h | ⟨h0, hsm, hc⟩
    · obtain ⟨h1, h2⟩ := hfst s w h
      have hwlt := hTlt _ (hwT _ (hAw _ h2))
      have hsT' : s ∉ T := by have := hwT' _ (hBw _ h1); rwa [sb_sb] at this
      have hslt : s < 2 * m := sb_lt.1 (hTlt _ (hwT _ (hBw _ h1)))
      refine ⟨hTD _ (hwT _ (hAw _ h2)), fun h => hsT' ((hT s).2 ⟨h, hslt⟩),
        .inl (.inr (.inl (.inr h1))), ?_⟩
      rintro ((⟨_, g⟩ | (g | g) | ⟨_, g | g⟩) | ⟨_, g⟩)
      · exact hwT' _ (hAw _ h2) g
      · exact hAB _ h2 g
      · exact hws' _ (hAw _ h2) (hBw _ g)
      · exact hAC _ h2 g
      · exact hws' _ (hAw _ h2) (hCw _ g)
      · omega
    · obtain ⟨g1, g2⟩ := hrp.1 h0
      have hwlt := hTlt _ (hwT _ (hCw _ hc))
      refine ⟨hTD _ (hwT _ (hCw _ hc)), hsm ▸ g2, .inr ⟨g1, hsm⟩, ?_⟩
      rintro ((⟨_, g⟩ | (g | g) | ⟨g, _⟩) | ⟨_, g⟩)
      · exact hwT' _ (hCw _ hc) g
      · exact hBC _ g hc
      · exact hws' _ (hCw _ hc) (hBw _ g)
      · rw [h0] at g; simp at g
      · omega
  · intro i hi
    rw [mem_sortU64, hmemE]
    have hi' : ∀ s w, ((s, w) ∈ idxPairs ws ∨ (rp = true ∧ s = 2 * m ∧ w ∈ C)) → s ≠ i ∧ w ≠ i :=
      fun s w h => hi (s, w) ((hmemS s w).2 h)
    by_cases him : i = 2 * m
    · subst him
      have hnot : ∀ q : Prop, (((2 * m ∈ T ∧ 2 * m ^^^ 1 ∈ T) ∨ (2 * m ∈ B ∨ 2 * m ^^^ 1 ∈ B) ∨
          (rp = false ∧ (2 * m ∈ C ∨ 2 * m ^^^ 1 ∈ C))) ∨ q) ↔ q := by
        intro q
        constructor
        · rintro (h | h)
          · have := hbnd (2 * m) ((hmemE _).2 h); omega
          · exact h
        · exact .inr
      rw [hnot]
      by_cases hbb : b = true
      · by_cases hrt : rp = true
        · have hnD := (hrp.1 hrt).2
          rcases hClast with ⟨h, hl⟩ | ⟨h, hl⟩
          · simp [hrt, hl, hnD]
          · exact absurd rfl (hi' (2 * m) (ws.getLastD 0) (.inr ⟨hrt, rfl, by rw [h]; simp⟩)).1
        · have hD2 : 2 * m ∈ D := by
            by_contra hc; exact hrt (hrp.2 ⟨hbb, hc⟩)
          simp only [hrt, hD2, hbb, true_iff, true_and, and_self]
          rcases hClast with ⟨h, hl⟩ | ⟨h, hl⟩
          · simp [hl]
          · simp only [hl]
            simp only [Bool.false_eq_true, if_false, Nat.one_ne_zero, ne_eq, Option.some.injEq]
            intro hc
            have : ws.getLastD 0 ∈ C := by rw [h]; simp
            have := sb_lt.2 (hTlt _ (hwT _ (hCw _ this)))
            omega
      · have : 2 * m ∉ D := by
          intro h; have := hb _ h
          simp only [Bool.not_eq_true] at hbb; rw [hbb] at this; simp at this
        simp [this, hbb]
    · have hDi : i ∈ D ↔ i ∈ T := ⟨fun h => hDT i h him, hTD i⟩
      have hne : ¬ (b = true ∧ i = 2 * m) := fun h => him h.2
      rw [hDi]
      have hX : ∀ x, (if rp = true then (if ws.length % 2 = 0 then some (2 * m) else none)
          else (if ws.length % 2 = 0 then none else some (ws.getLastD 0 ^^^ 1))) = some x ↔
          (rp = true ∧ C = [] ∧ x = 2 * m) ∨ (rp = false ∧ x ^^^ 1 ∈ C) := by
        intro x
        rcases hClast with ⟨h, hl⟩ | ⟨h, hl⟩ <;> cases rp <;> simp [h, hl]
        · exact eq_comm
        · rw [sb_eq_comm, eq_comm]
      rw [Ne, hX i]
      constructor
      · intro hiT
        refine ⟨?_, ?_⟩
        · left
          by_cases h1 : i ^^^ 1 ∈ T
          · exact .inl ⟨hiT, h1⟩
          · rcases (hmem i).1 ((hws i).2 ⟨hiT, h1⟩) with h | h | h
            · obtain ⟨s, hs⟩ := hAsnd i h
              exact absurd rfl (hi' s i (.inl hs)).2
            · exact .inr (.inl (.inl h))
            · by_cases hrt : rp = true
              · exact absurd rfl (hi' (2 * m) i (.inr ⟨hrt, rfl, h⟩)).2
              · exact .inr (.inr ⟨by simpa using hrt, .inl h⟩)
        · rintro (⟨_, _, h⟩ | ⟨_, h⟩)
          · exact him h
          · have := hwT' _ (hCw _ h); rw [sb_sb] at this; exact this hiT
      · rintro ⟨h | h, hX⟩
        · rcases h with ⟨h, _⟩ | (h | h) | ⟨h0, h | h⟩
          · exact h
          · exact hwT _ (hBw _ h)
          · obtain ⟨w, hw⟩ := hBfst _ h
            rw [sb_sb] at hw
            exact absurd rfl (hi' i w (.inl hw)).1
          · exact hwT _ (hCw _ h)
          · exact absurd (.inr ⟨h0, h⟩) hX
        · exact absurd h hne
  · intro x hx
    have hX : (rp = true ∧ C = [] ∧ x = 2 * m) ∨ (rp = false ∧ x ^^^ 1 ∈ C) := by
      rcases hClast with ⟨h, hl⟩ | ⟨h, hl⟩ <;> cases rp <;> simp [h, hl] at hx ⊢
      · exact hx.symm
      · rw [← hx, sb_sb]
    rw [mem_sortU64, hmemE]
    rcases hX with ⟨h0, hC0, rfl⟩ | ⟨h0, h1⟩
    · obtain ⟨g1, g2⟩ := hrp.1 h0
      refine ⟨.inr ⟨g1, rfl⟩, g2, ?_, .inl rfl⟩
      rintro ⟨s, w⟩ hp
      rcases (hmemS s w).1 hp with h | ⟨_, _, h⟩
      · have := sb_lt.1 (hTlt _ (hwT _ (hBw _ (hfst s w h).1)))
        show s ≠ 2 * m
        omega
      · rw [hC0] at h; simp at h
    · have hxlt : x < 2 * m := sb_lt.1 (hTlt _ (hwT _ (hCw _ h1)))
      have hxT : x ∉ T := by have := hwT' _ (hCw _ h1); rwa [sb_sb] at this
      refine ⟨.inl (.inr (.inr ⟨h0, .inr h1⟩)), fun h => hxT ((hT x).2 ⟨h, hxlt⟩), ?_, .inr ⟨hxlt, ?_⟩⟩
      · rintro ⟨s, w⟩ hp
        rcases (hmemS s w).1 hp with h | ⟨h, _⟩
        · rintro rfl
          exact hBC _ (hfst _ w h).1 h1
        · rw [h0] at h; simp at h
      · rintro ⟨s, w⟩ hp
        rcases (hmemS s w).1 hp with h | ⟨h, _⟩
        · refine ⟨?_, ?_⟩
          · rintro rfl
            have h2 := hBw _ (hfst _ w h).1
            exact hws' _ h2 (by rw [sb_sb]; exact hCw _ h1)
          · rintro rfl
            exact hAC _ (hfst s _ h).2 h1
        · rw [h0] at h; simp at h
  · rw [length_sortU64, List.length_append]
    rcases hClast with ⟨h, hl⟩ | ⟨h, hl⟩
    · cases hre : rp
      · have : b.toNat = (decide (2 * m ∈ D)).toNat := by
          by_cases hbb : b = true
          · have hD2 : 2 * m ∈ D := by
              by_contra hc; have := hrp.2 ⟨hbb, hc⟩; rw [hre] at this; simp at this
            simp [hbb, hD2]
          · have : 2 * m ∉ D := by
              intro h; have := hb _ h
              simp only [Bool.not_eq_true] at hbb; rw [hbb] at this; simp at this
            simp [this, hbb]
        simp [h, hl]; omega
      · obtain ⟨g1, g2⟩ := hrp.1 hre
        simp [hl, g1]; simp [g2] at hlen; omega
    · cases hre : rp
      · have : b.toNat = (decide (2 * m ∈ D)).toNat := by
          by_cases hbb : b = true
          · have hD2 : 2 * m ∈ D := by
              by_contra hc; have := hrp.2 ⟨hbb, hc⟩; rw [hre] at this; simp at this
            simp [hbb, hD2]
          · have : 2 * m ∉ D := by
              intro h; have := hb _ h
              simp only [Bool.not_eq_true] at hbb; rw [hbb] at this; simp at this
            simp [this, hbb]
        simp [h, hl]; omega
      · obtain ⟨g1, g2⟩ := hrp.1 hre
        simp [hl, g1]; simp [g2] at hlen; omega

end Utreexo
