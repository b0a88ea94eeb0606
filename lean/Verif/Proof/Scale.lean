import Verif.Proof.OneGone
import Verif.Proof.Intact

/-!
# Deleting whole subtrees is deleting leaves of a smaller forest
-/

set_option linter.unusedSectionVars false

namespace Utreexo
open Spec

namespace Settle

variable {α : Type}

/-! ## The rule does not look into the trees -/

theorem siblings_nat {S T : Type} (f : S → T) : ∀ row : List (Option S), siblings (row.map (Option.map f)) =
    ((siblings row).1.map (Prod.map (Option.map f) (Option.map f)), (siblings row).2.map f)
  | [] => rfl
  | [x] => rfl
  | x :: y :: row => by
    simp only [List.map_cons, siblings, siblings_nat f row, Prod.map]

theorem takeNext_nat {S T : Type} (f : S → T) : ∀ (ps : List (Option S × Option S)) (o : Option S),
    takeNext (ps.map (Prod.map (Option.map f) (Option.map f))) (o.map f) =
      (takeNext ps o).map fun r => (f r.1, r.2.1.map (Prod.map (Option.map f) (Option.map f)), r.2.2.map f)
  | [], none => rfl
  | [], some t => rfl
  | (some t, none) :: ps, o => rfl
  | (none, some t) :: ps, o => rfl
  | (none, none) :: ps, o => by
    have := takeNext_nat f ps o
    simp only [List.map_cons, Prod.map, Option.map_none, takeNext] at this ⊢
    rw [this, Option.map_map, Option.map_map]
    rfl
  | (some a, some b) :: ps, o => by
    have := takeNext_nat f ps o
    simp only [List.map_cons, Prod.map, Option.map_some, takeNext] at this ⊢
    rw [this, Option.map_map, Option.map_map]
    rfl

theorem joinRow_nat : ∀ (k : ℕ) (ps : List (Option (List (List α)) × Option (List (List α)))) (o : Option (List (List α))),
    joinRow k (ps.map (Prod.map (Option.map List.flatten) (Option.map List.flatten))) (o.map List.flatten) =
      ((joinRow k ps o).1.map (Option.map List.flatten), (joinRow k ps o).2.map List.flatten)
  | 0, ps, o => by cases ps <;> rfl
  | k + 1, [], o => rfl
  | k + 1, (some a, some b) :: ps, o => by
    have := joinRow_nat k ps o
    simp only [List.map_cons, Prod.map, Option.map_some, joinRow] at this ⊢
    rw [this]
    simp
  | k + 1, (none, none) :: ps, o => by
    have := joinRow_nat k ps o
    simp only [List.map_cons, Prod.map, Option.map_none, joinRow] at this ⊢
    rw [this]
  | k + 1, (some a, none) :: ps, o => by
    have ht := takeNext_nat (List.flatten (α := α)) ps o
    simp only [List.map_cons, Prod.map, Option.map_some, Option.map_none, joinRow] at ht ⊢
    rw [ht]
    cases e : takeNext ps o with
    | none =>
      have := joinRow_nat k ps o
      simp only [Option.map_none, this, List.map_cons]
      rfl
    | some r =>
      obtain ⟨t, ps', o'⟩ := r
      have := joinRow_nat k ps' o'
      simp only [Option.map_some, this, List.map_cons, Option.getD_some, Option.getD_none, List.flatten_append]
  | k + 1, (none, some b) :: ps, o => by
    have ht := takeNext_nat (List.flatten (α := α)) ps o
    simp only [List.map_cons, Prod.map, Option.map_some, Option.map_none, joinRow] at ht ⊢
    rw [ht]
    cases e : takeNext ps o with
    | none =>
      have := joinRow_nat k ps o
      simp only [Option.map_none, this, List.map_cons]
      rfl
    | some r =>
      obtain ⟨t, ps', o'⟩ := r
      have := joinRow_nat k ps' o'
      simp only [Option.map_some, this, List.map_cons, Option.getD_some, Option.getD_none, List.flatten_append]

theorem settle_nat : ∀ (k : ℕ) (row : List (Option (List (List α)))), settle k (row.map (Option.map List.flatten)) = (settle k row).flatten
  | 0, row => rfl
  | k + 1, row => by
    simp only [settle]
    rw [siblings_nat, List.length_map, joinRow_nat, settle_nat, List.flatten_append]
    cases (joinRow (siblings row).1.length (siblings row).1 (siblings row).2).2 <;> rfl

/-! ## Rows below the deleted subtrees -/

theorem J_pairs (row : List (Option (List α))) : ∀ E : List (Option (List α × List α)),
    J ((E.flatMap fun e => [e.map Prod.fst, e.map Prod.snd]) ++ row) = (E.map (Option.map fun p => p.1 ++ p.2) ++ (J row).1, (J row).2)
  | [] => rfl
  | none :: E => by
    have := J_pairs row E
    have e : J (none :: none :: ((E.flatMap fun e => [e.map Prod.fst, e.map Prod.snd]) ++ row)) =
      (none :: (J ((E.flatMap fun e => [e.map Prod.fst, e.map Prod.snd]) ++ row)).1, (J ((E.flatMap fun e => [e.map Prod.fst, e.map Prod.snd]) ++ row)).2) := rfl
    rw [this] at e
    exact e
  | some (a, b) :: E => by
    have := J_pairs row E
    have e := J_cons a b ((E.flatMap fun e => [e.map Prod.fst, e.map Prod.snd]) ++ row)
    rw [this] at e
    exact e

theorem range_pairs {T : Type} (f : ℕ → T) : ∀ n : ℕ, (List.range (2 * n)).map f = (List.range n).flatMap fun i => [f (2 * i), f (2 * i + 1)]
  | 0 => rfl
  | n + 1 => by
    rw [show 2 * (n + 1) = 2 * n + 1 + 1 by omega, List.range_succ, List.range_succ, List.range_succ, List.map_append, List.map_append,
      range_pairs f n, List.flatMap_append]
    simp

theorem J_some : ∀ T : List (List α), ∃ o, J (T.map some) = ((joins T).map some, o) ∧ (joins T).flatten ++ o.getD [] = T.flatten
  | [] => ⟨none, rfl, rfl⟩
  | [x] => ⟨some x, rfl, by simp [joins]⟩
  | a :: b :: T => by
    obtain ⟨o, h1, h2⟩ := J_some T
    refine ⟨o, ?_, ?_⟩
    · rw [List.map_cons, List.map_cons, J_cons, h1]
      rfl
    · rw [joins, List.flatten_cons, List.append_assoc, h2]
      simp

theorem joins_half : ∀ T : List (List α), (joins T).length = T.length / 2
  | [] => by simp [joins]
  | [x] => by simp [joins]
  | a :: b :: T => by
    rw [joins, List.length_cons, joins_half T, List.length_cons, List.length_cons]
    omega

theorem settle_scale (gone : ℕ → Bool) (K m : ℕ) : ∀ (r : ℕ) (g : ℕ → List α) (T : List (List α)), T.length < 2 ^ r →
    settle (K + r) (((List.range (2 ^ r * m)).map fun x => if gone (x / 2 ^ r) then none else some (g x)) ++ T.map some) =
      settle K ((List.range m).map fun i => if gone i then none else some ((List.range (2 ^ r)).map fun y => g (i * 2 ^ r + y)).flatten) ++ T.flatten
  | 0, g, T, hT => by
    obtain rfl : T = [] := List.length_eq_zero_iff.1 (by simpa using hT)
    simp
  | r + 1, g, T, hT => by
    have hm : 2 ^ (r + 1) * m = 2 * (2 ^ r * m) := by rw [pow_succ]; ring
    rw [pow_succ] at hT
    obtain ⟨o, h1, h2⟩ := J_some T
    have e : ((List.range (2 ^ (r + 1) * m)).map fun x => if gone (x / 2 ^ (r + 1)) then none else some (g x)) =
        ((List.range (2 ^ r * m)).map fun i => if gone (i / 2 ^ r) then none else some (g (2 * i), g (2 * i + 1))).flatMap
          fun e => [e.map Prod.fst, e.map Prod.snd] := by
      rw [hm, range_pairs, List.flatMap_map]
      congr 1
      funext i
      have e1 : 2 * i / 2 ^ (r + 1) = i / 2 ^ r := by
        rw [pow_succ, Nat.mul_comm (2 ^ r), Nat.mul_div_mul_left _ _ (by omega)]
      have e2 : (2 * i + 1) / 2 ^ (r + 1) = i / 2 ^ r := by
        rw [pow_succ, Nat.mul_comm (2 ^ r), ← Nat.div_div_eq_div_mul]
        congr 1
        omega
      rw [e1, e2]
      split <;> rfl
    rw [e, ← Nat.add_assoc, settle_succ, J_pairs, h1]
    dsimp only
    have e3 : List.map (Option.map fun p : List α × List α => p.1 ++ p.2)
        ((List.range (2 ^ r * m)).map fun i => if gone (i / 2 ^ r) then none else some (g (2 * i), g (2 * i + 1))) =
        (List.range (2 ^ r * m)).map fun i => if gone (i / 2 ^ r) then none else some (g (2 * i) ++ g (2 * i + 1)) := by
      rw [List.map_map]
      apply List.map_congr_left
      intro i _
      simp only [Function.comp_apply]
      split <;> rfl
    rw [e3, settle_scale gone K m r (fun i => g (2 * i) ++ g (2 * i + 1)) (joins T) (by rw [joins_half]; omega), List.append_assoc, h2]
    congr 3
    funext i
    split
    · rfl
    · congr 1
      have := range_twice (fun y => g (i * 2 ^ (r + 1) + y)) (2 ^ r)
      rw [show 2 ^ (r + 1) = 2 * 2 ^ r by rw [pow_succ]; ring] at this ⊢
      rw [this]
      congr 1
      apply List.map_congr_left
      intro y _
      rw [show 2 * (i * 2 ^ r + y) = i * (2 * 2 ^ r) + 2 * y by ring]
      rfl

theorem delete_scale (L : List α) (D : List ℕ) (r : ℕ) (I : List ℕ) (hI : ∀ i ∈ I, (i + 1) * 2 ^ r ≤ L.length)
    (hD : ∀ x, x ∈ D ↔ x / 2 ^ r ∈ I) :
    deleteLeaves L D = (deleteLeaves ((List.range (L.length / 2 ^ r)).map (leavesBelow L r)) I).flatten ++ L.drop (L.length / 2 ^ r * 2 ^ r) := by
  have hpos : 0 < 2 ^ r := by positivity
  set m := L.length / 2 ^ r with hm
  have hml : m * 2 ^ r ≤ L.length := Nat.div_mul_le_self _ _
  have hmn : m ≤ L.length := Nat.div_le_self _ _
  have hrest : L.length - m * 2 ^ r < 2 ^ r := by
    have h1 := Nat.div_add_mod L.length (2 ^ r)
    have h2 := Nat.mod_lt L.length hpos
    rw [← hm, Nat.mul_comm] at h1
    omega
  have hrow : L.zipIdx.map (fun e => if D.contains e.2 then none else some [e.1]) =
      ((List.range (2 ^ r * m)).map fun x => if I.contains (x / 2 ^ r) then none else some (L[x]?).toList) ++
        ((L.drop (m * 2 ^ r)).map fun x => [x]).map some := by
    have hlen : ((List.range (2 ^ r * m)).map fun x => if I.contains (x / 2 ^ r) then none else some (L[x]?).toList).length = m * 2 ^ r := by
      rw [List.length_map, List.length_range, Nat.mul_comm]
    apply List.ext_getElem?
    intro x
    rcases Nat.lt_or_ge x L.length with hx | hx
    · rw [List.getElem?_map, List.getElem?_zipIdx, List.getElem?_eq_getElem hx, Option.map_some, Option.map_some]
      have hc : D.contains (0 + x) = I.contains (x / 2 ^ r) := by
        rw [Nat.zero_add, Bool.eq_iff_iff, List.contains_iff_mem, List.contains_iff_mem, hD]
      dsimp only
      rw [hc]
      rcases Nat.lt_or_ge x (m * 2 ^ r) with h | h
      · rw [List.getElem?_append_left (by omega), List.getElem?_map, List.getElem?_range (by rw [Nat.mul_comm]; exact h), Option.map_some,
          List.getElem?_eq_getElem hx]
        rfl
      · have hn : I.contains (x / 2 ^ r) = false := by
          rw [Bool.eq_false_iff, Ne, List.contains_iff_mem]
          intro hmem
          have h1 := hI _ hmem
          have h2 : m ≤ x / 2 ^ r := (Nat.le_div_iff_mul_le hpos).2 h
          have h3 : (m + 1) * 2 ^ r ≤ (x / 2 ^ r + 1) * 2 ^ r := Nat.mul_le_mul_right _ (by omega)
          rw [Nat.add_mul] at h3
          omega
        rw [hn, List.getElem?_append_right (by omega), hlen, List.getElem?_map, List.getElem?_map, List.getElem?_drop,
          show m * 2 ^ r + (x - m * 2 ^ r) = x by omega, List.getElem?_eq_getElem hx]
        rfl
    · rw [List.getElem?_eq_none (by simpa using hx), List.getElem?_eq_none (by
        rw [List.length_append, hlen, List.length_map, List.length_map, List.length_drop]; omega)]
  have hflat : ((L.drop (m * 2 ^ r)).map fun x => [x]).flatten = L.drop (m * 2 ^ r) := by
    generalize L.drop (m * 2 ^ r) = T
    induction T with
    | nil => rfl
    | cons a T ih => simp [ih]
  have h1 := settle_scale (fun i => I.contains i) L.length m r (fun x => (L[x]?).toList) ((L.drop (m * 2 ^ r)).map fun x => [x]) (by
    rw [List.length_map, List.length_drop]; exact hrest)
  have hfuel := settle_fuel L.length r (L.zipIdx.map (fun e => if D.contains e.2 then none else some [e.1])) (by
    rw [List.length_map, List.length_zipIdx]; exact Nat.lt_two_pow_self)
  conv_lhs => unfold deleteLeaves
  rw [← hfuel, hrow, h1, hflat]
  congr 1
  unfold deleteLeaves
  rw [← settle_nat, List.length_map, List.length_range]
  have hrow2 : List.map (Option.map List.flatten) (((List.range m).map (leavesBelow L r)).zipIdx.map
        (fun e => if I.contains e.2 then none else some [e.1])) =
      (List.range m).map fun i => if I.contains i then none else some ((List.range (2 ^ r)).map fun y => (L[i * 2 ^ r + y]?).toList).flatten := by
    apply List.ext_getElem?
    intro i
    rcases Nat.lt_or_ge i m with hi | hi
    · rw [List.getElem?_map, List.getElem?_map, List.getElem?_zipIdx, List.getElem?_map, List.getElem?_range hi, List.getElem?_map,
        List.getElem?_range hi]
      simp only [Option.map_some, Nat.zero_add]
      split
      · rfl
      · rw [range_take]
        simp [leavesBelow]
    · rw [List.getElem?_eq_none (by simpa using hi), List.getElem?_eq_none (by simpa using hi)]
  rw [hrow2, show L.length = m + (L.length - m) by omega]
  exact settle_fuel m (L.length - m) _ (by rw [List.length_map, List.length_range]; exact Nat.lt_two_pow_self)

end Settle

end Utreexo
