import Verif.Proof.Local
import Verif.Spec.OneGone

/-!
# The order of the leaves after one is deleted
-/

set_option linter.unusedSectionVars false

namespace Utreexo
open Spec

namespace Settle

variable {α : Type}

/-- A row with one tree missing. -/
def hole (B : List (List α)) (p : ℕ) : List (Option (List α)) := (B.map some).set p none

theorem siblings_full : ∀ (n : ℕ) (B : List (List α)) (row : List (Option (List α))), B.length = 2 * n →
    (siblings (B.map some ++ row)).2 = (siblings row).2 ∧ ∀ o t,
      (takeNext (siblings row).1 o = none → takeNext (siblings (B.map some ++ row)).1 o = none) ∧
      (row = [] → o = some t → takeNext (siblings (B.map some ++ row)).1 o = some (t, (siblings (B.map some ++ row)).1, none))
  | 0, B, row, h => by
    obtain rfl : B = [] := List.length_eq_zero_iff.1 (by omega)
    refine ⟨rfl, fun o t => ⟨fun h => h, ?_⟩⟩
    rintro rfl rfl
    rfl
  | n + 1, [], row, h => by simp at h
  | n + 1, [_], row, h => by simp at h; omega
  | n + 1, a :: b :: B, row, h => by
    have hl : B.length = 2 * n := by simp only [List.length_cons] at h; omega
    obtain ⟨h1, h2⟩ := siblings_full n B row hl
    refine ⟨h1, fun o t => ⟨fun h => ?_, fun hr ho => ?_⟩⟩
    · have := (h2 o t).1 h
      simp only [List.map_cons, List.cons_append, siblings, takeNext, this, Option.map_none]
    · have := (h2 o t).2 hr ho
      simp only [List.map_cons, List.cons_append, siblings, takeNext, this, Option.map_some]

theorem siblings_map_even {n : ℕ} {B : List (List α)} (h : B.length = 2 * n) : (siblings (B.map some)).2 = none ∧
    takeNext (siblings (B.map some)).1 none = none ∧ ∀ t, takeNext (siblings (B.map some)).1 (some t) = some (t, (siblings (B.map some)).1, none) := by
  obtain ⟨h1, h2⟩ := siblings_full n B [] h
  rw [List.append_nil] at h1 h2
  exact ⟨h1, (h2 none []).1 rfl, fun t => (h2 (some t) t).2 rfl rfl⟩

theorem joinRow_map_even {n : ℕ} {B : List (List α)} (h : B.length = 2 * n) :
    joinRow (siblings (B.map some)).1.length (siblings (B.map some)).1 none = ((joins B).map some, none) := by
  have := J_full n B [] h
  rw [List.append_nil] at this
  unfold J at this
  rw [(siblings_map_even h).1] at this
  rw [this]
  simp [siblings, joinRow]

/-- An even row: the sibling of the missing tree becomes the root of the row. -/
theorem J_hole_even : ∀ (n : ℕ) (B : List (List α)) (p : ℕ), B.length = 2 * n → p < B.length →
    J (hole B p) = (hole (joins B) (p / 2), B[p ^^^ 1]?)
  | 0, B, p, h, hp => by omega
  | n + 1, [], p, h, hp => by simp at h
  | n + 1, [_], p, h, hp => by simp at h; omega
  | n + 1, a :: b :: B, 0, h, hp => by
    have hl : B.length = 2 * n := by simp only [List.length_cons] at h; omega
    obtain ⟨h1, h2, -⟩ := siblings_map_even hl
    have hj := joinRow_map_even hl
    unfold J hole
    simp only [List.map_cons, List.set_cons_zero, siblings, List.length_cons, joinRow, h1, h2, hj, joins]
    simp
  | n + 1, a :: b :: B, 1, h, hp => by
    have hl : B.length = 2 * n := by simp only [List.length_cons] at h; omega
    obtain ⟨h1, h2, -⟩ := siblings_map_even hl
    have hj := joinRow_map_even hl
    unfold J hole
    simp only [List.map_cons, List.set_cons_succ, List.set_cons_zero, siblings, List.length_cons, joinRow, h1, h2, hj, joins]
    simp
  | n + 1, a :: b :: B, p + 2, h, hp => by
    have hl : B.length = 2 * n := by simp only [List.length_cons] at h; omega
    have ih := J_hole_even n B p hl (by simp only [List.length_cons] at hp; omega)
    have e : hole (a :: b :: B) (p + 2) = some a :: some b :: hole B p := rfl
    rw [e, J_cons, ih, joins, show (p + 2) / 2 = p / 2 + 1 by omega]
    have hx : (p + 2) ^^^ 1 = (p ^^^ 1) + 2 := by
      rw [xor_one_cases, xor_one_cases]
      split <;> split <;> omega
    rw [hx]
    rfl

/-- An odd row: the last tree takes the place of the missing one. -/
theorem J_hole_odd : ∀ (n : ℕ) (B : List (List α)) (z : List α) (p : ℕ), B.length = 2 * n → p < B.length →
    J (hole (B ++ [z]) p) = ((joins (B.set p z)).map some, none)
  | 0, B, z, p, h, hp => by omega
  | n + 1, [], z, p, h, hp => by simp at h
  | n + 1, [_], z, p, h, hp => by simp at h; omega
  | n + 1, a :: b :: B, z, 0, h, hp => by
    have hl : B.length = 2 * n := by simp only [List.length_cons] at h; omega
    obtain ⟨h1, h2⟩ := siblings_full n B [some z] hl
    have hs : (siblings (B.map some ++ [some z])).1 = (siblings (B.map some)).1 := sib_app n B hl z
    obtain ⟨-, -, h3⟩ := siblings_map_even hl
    have hj := joinRow_map_even hl
    have e : hole (a :: b :: B ++ [z]) 0 = none :: some b :: (B.map some ++ [some z]) := by simp [hole]
    have e2 : (siblings (B.map some ++ [some z])).2 = some z := h1
    rw [e]
    unfold J
    simp only [siblings, List.length_cons, hs, e2, joinRow, h3, hj, List.set_cons_zero, joins]
    simp
  | n + 1, a :: b :: B, z, 1, h, hp => by
    have hl : B.length = 2 * n := by simp only [List.length_cons] at h; omega
    obtain ⟨h1, h2⟩ := siblings_full n B [some z] hl
    have hs : (siblings (B.map some ++ [some z])).1 = (siblings (B.map some)).1 := sib_app n B hl z
    obtain ⟨-, -, h3⟩ := siblings_map_even hl
    have hj := joinRow_map_even hl
    have e : hole (a :: b :: B ++ [z]) 1 = some a :: none :: (B.map some ++ [some z]) := by simp [hole]
    have e2 : (siblings (B.map some ++ [some z])).2 = some z := h1
    rw [e]
    unfold J
    simp only [siblings, List.length_cons, hs, e2, joinRow, h3, hj, List.set_cons_zero, List.set_cons_succ, joins]
    simp
  | n + 1, a :: b :: B, z, p + 2, h, hp => by
    have hl : B.length = 2 * n := by simp only [List.length_cons] at h; omega
    have ih := J_hole_odd n B z p hl (by simp only [List.length_cons] at hp; omega)
    have e : hole (a :: b :: B ++ [z]) (p + 2) = some a :: some b :: hole (B ++ [z]) p := rfl
    rw [e, J_cons, ih]
    rfl
where
  sib_app : ∀ (n : ℕ) (B : List (List α)), B.length = 2 * n → ∀ z, (siblings (B.map some ++ [some z])).1 = (siblings (B.map some)).1
    | 0, B, h, z => by
      obtain rfl : B = [] := List.length_eq_zero_iff.1 (by omega)
      rfl
    | n + 1, [], h, z => by simp at h
    | n + 1, [_], h, z => by simp at h; omega
    | n + 1, a :: b :: B, h, z => by
      have hl : B.length = 2 * n := by simp only [List.length_cons] at h; omega
      simp only [List.map_cons, List.cons_append, siblings, sib_app n B hl z]

theorem settle_map (K : ℕ) (B : List (List α)) (h : B.length < 2 ^ K) : settle K (B.map some) = B.flatten := by
  have := settle_last K B [] (by simp) (by simpa using h)
  rw [List.append_nil, settle_nil, List.append_nil] at this
  exact this

/-- What is left of a row of `m` trees, `m` a multiple of `2 ^ k` and not of `2 ^ (k + 1)`, when tree `p` is missing. -/
def left : ℕ → List (List α) → ℕ → List α
  | 0, B, p => (B.dropLast.set p (B.getLast?.getD [])).flatten
  | k + 1, B, p => left k (joins B) (p / 2) ++ (B[p ^^^ 1]?).getD []

theorem settle_hole : ∀ (k K : ℕ) (B : List (List α)) (p : ℕ), p < B.length → B.length < 2 ^ K → 2 ^ k ∣ B.length → ¬ 2 ^ (k + 1) ∣ B.length →
    settle K (hole B p) = left k B p
  | k, 0, B, p, hp, hK, _, _ => by simp only [pow_zero] at hK; omega
  | 0, K + 1, B, p, hp, hK, _, ho => by
    rw [pow_succ] at hK
    have ho' : B.length % 2 = 1 := by
      rw [Nat.zero_add, pow_one] at ho
      omega
    have hne : B ≠ [] := by rintro rfl; simp at hp
    obtain ⟨B0, z, rfl⟩ : ∃ B0 z, B = B0 ++ [z] := ⟨B.dropLast, B.getLast hne, (List.dropLast_append_getLast hne).symm⟩
    rw [List.length_append, List.length_singleton] at hp hK ho'
    have hn : B0.length = 2 * (B0.length / 2) := by omega
    have hl : (joins B0).length < 2 ^ K := by rw [joins_length _ B0 hn]; omega
    unfold left
    rw [List.dropLast_concat, List.getLast?_concat, Option.getD_some, settle_succ]
    rcases Nat.lt_or_ge p B0.length with h | h
    · have hs : (B0.set p z).length = 2 * (B0.length / 2) := by rw [List.length_set]; exact hn
      rw [J_hole_odd _ B0 z p hn h]
      dsimp only
      rw [settle_map K _ (by rw [joins_length _ _ hs]; omega), joins_flatten _ _ hs]
      simp
    · obtain rfl : p = B0.length := by omega
      have e : hole (B0 ++ [z]) B0.length = B0.map some ++ [none] := by
        unfold hole
        rw [List.map_append, List.set_append_right _ _ (by simp)]
        simp
      rw [e, J_full _ B0 _ hn]
      have hJ : J [(none : Option (List α))] = ([], none) := rfl
      rw [hJ]
      dsimp only
      rw [List.append_nil, settle_map K _ hl, joins_flatten _ _ hn, List.set_eq_of_length_le (by omega)]
      simp
  | k + 1, K + 1, B, p, hp, hK, hd, ho => by
    obtain ⟨c, hc⟩ := hd
    rw [pow_succ] at hK
    have hn : B.length = 2 * (2 ^ k * c) := by rw [hc, pow_succ]; ring
    have hj := joins_length _ B hn
    rw [settle_succ, J_hole_even _ B p hn hp]
    dsimp only
    rw [left, settle_hole k K (joins B) (p / 2) (by omega) (by omega) ⟨c, hj⟩ (by
      rintro ⟨e, he⟩
      refine ho ⟨e, ?_⟩
      rw [hn, ← hj, he, pow_succ (n := k + 1)]
      ring)]

theorem joins_range (g : ℕ → List α) : ∀ n : ℕ, joins ((List.range (2 * n)).map g) = (List.range n).map fun x => g (2 * x) ++ g (2 * x + 1)
  | 0 => rfl
  | n + 1 => by
    have hl : ((List.range (2 * n)).map g).length = 2 * n := by simp
    have := J_full n ((List.range (2 * n)).map g) [some (g (2 * n)), some (g (2 * n + 1))] hl
    have h2 := J_full (n + 1) ((List.range (2 * (n + 1))).map g) [] (by simp)
    rw [show 2 * (n + 1) = 2 * n + 1 + 1 by omega, List.range_succ, List.range_succ] at h2 ⊢
    have e : List.map some (List.map g (List.range (2 * n) ++ [2 * n] ++ [2 * n + 1])) ++ [] =
        List.map some (List.map g (List.range (2 * n))) ++ [some (g (2 * n)), some (g (2 * n + 1))] := by simp
    rw [e, this, joins_range g n, Prod.mk.injEq] at h2
    have h3 := h2.1
    have hJ : (J [some (g (2 * n)), some (g (2 * n + 1))]).1 = [some (g (2 * n) ++ g (2 * n + 1))] := rfl
    have hJ0 : (J ([] : List (Option (List α)))).1 = [] := rfl
    rw [hJ, hJ0, List.append_nil] at h3
    rw [List.range_succ (n := n), List.map_append (l₁ := List.range n)]
    refine List.map_injective_iff.2 (Option.some_injective _) ?_
    rw [← h3]
    simp

theorem leavesBelow_succ (L : List α) (r i : ℕ) : leavesBelow L (r + 1) i = leavesBelow L r (2 * i) ++ leavesBelow L r (2 * i + 1) := by
  unfold leavesBelow
  rw [show 2 ^ (r + 1) = 2 ^ r + 2 ^ r by rw [pow_succ]; ring, List.take_add, List.drop_drop]
  congr 3
  · ring
  · congr 1; ring

theorem left_blocks (L : List α) : ∀ (k r m p : ℕ), m = 2 ^ k * (m / 2 ^ k) → 0 < m → p < m →
    left k ((List.range m).map (leavesBelow L r)) p =
      (((List.range (m / 2 ^ k - 1)).map (leavesBelow L (r + k))).set (p / 2 ^ k) (leavesBelow L (r + k) (m / 2 ^ k - 1))).flatten ++
        ((List.range k).reverse.map fun q => leavesBelow L (r + q) (p / 2 ^ q ^^^ 1)).flatten
  | 0, r, m, p, hm, h0, hp => by
    obtain ⟨m', rfl⟩ : ∃ m', m = m' + 1 := ⟨m - 1, by omega⟩
    unfold left
    simp [List.range_succ]
  | k + 1, r, m, p, hm, h0, hp => by
    have hm2 : m = 2 * (2 ^ k * (m / 2 ^ (k + 1))) := by
      conv_lhs => rw [hm]
      rw [pow_succ]; ring
    generalize hc : m / 2 ^ (k + 1) = c at *
    subst hm2
    have hcp : 0 < 2 ^ k * c := by omega
    have hd : 2 ^ k * c / 2 ^ k = c := Nat.mul_div_cancel_left _ (by positivity)
    rw [left, joins_range]
    have e : (fun x => leavesBelow L r (2 * x) ++ leavesBelow L r (2 * x + 1)) = leavesBelow L (r + 1) := by
      funext x
      rw [leavesBelow_succ]
    rw [e, left_blocks L k (r + 1) (2 ^ k * c) (p / 2) (by rw [hd]) hcp (by omega), hd]
    have hx : p ^^^ 1 < 2 * (2 ^ k * c) := by
      rw [xor_one_cases]
      split <;> omega
    have hg : (((List.range (2 * (2 ^ k * c))).map (leavesBelow L r))[p ^^^ 1]?).getD [] = leavesBelow L r (p ^^^ 1) := by
      rw [List.getElem?_map, List.getElem?_range hx]
      rfl
    rw [hg, List.append_assoc]
    have hdiv : ∀ q, p / 2 / 2 ^ q = p / 2 ^ (q + 1) := by
      intro q
      rw [Nat.div_div_eq_div_mul, pow_succ, Nat.mul_comm]
    congr 2
    · rw [hdiv, show r + 1 + k = r + (k + 1) by omega]
    · rw [List.range_succ_eq_map, List.reverse_cons, List.map_append, List.flatten_append, ← List.map_reverse, List.map_map]
      congr 1
      · congr 1
        apply List.map_congr_left
        intro q _
        simp only [Function.comp_apply, hdiv, Nat.succ_eq_add_one]
        rw [show r + 1 + q = r + (q + 1) by omega]
      · simp

/-- The leaves after one is deleted. `2 ^ k` is the size of the smallest tree. -/
theorem delete_one (L : List α) (t k : ℕ) (ht : t < L.length) (hk : 2 ^ k ∣ L.length) (hk' : ¬ 2 ^ (k + 1) ∣ L.length) :
    deleteLeaves L [t] = withoutOne L t k := by
  unfold deleteLeaves withoutOne
  have hrow : L.zipIdx.map (fun e => if [t].contains e.2 then none else some [e.1]) = hole ((List.range L.length).map (leavesBelow L 0)) t := by
    unfold hole
    apply List.ext_getElem?
    intro i
    rcases Nat.lt_or_ge i L.length with hi | hi
    · rw [List.getElem?_map, List.getElem?_zipIdx, List.getElem?_eq_getElem hi, List.getElem?_set]
      have hb : leavesBelow L 0 i = [L[i]] := by
        unfold leavesBelow
        rw [pow_zero, Nat.mul_one, List.drop_eq_getElem_cons hi]
        rfl
      by_cases h : t = i
      · subst h
        simp [ht]
      · have h' : i ≠ t := fun e => h e.symm
        simp [h, h', hb, hi]
    · rw [List.getElem?_eq_none (by simpa using hi), List.getElem?_eq_none (by simpa using hi)]
  rw [hrow, settle_hole k L.length _ t (by simpa using ht) (by simpa using Nat.lt_two_pow_self) (by simpa using hk) (by simpa using hk'),
    left_blocks L k 0 L.length t (Nat.mul_div_cancel' hk).symm (by omega) ht]
  simp only [Nat.zero_add]

theorem flatten_blocks (c : ℕ) : ∀ (B : List (List α)), (∀ b ∈ B, b.length = c) → B.flatten.length = B.length * c ∧
    ∀ i y, y < c → B.flatten[i * c + y]? = (B[i]?).bind (·[y]?)
  | [], _ => by simp
  | b :: B, h => by
    obtain ⟨h1, h2⟩ := flatten_blocks c B fun x hx => h x (List.mem_cons_of_mem _ hx)
    have hb := h b List.mem_cons_self
    refine ⟨by rw [List.flatten_cons, List.length_append, h1, hb, List.length_cons]; ring, fun i y hy => ?_⟩
    rw [List.flatten_cons]
    cases i with
    | zero => rw [Nat.zero_mul, Nat.zero_add, List.getElem?_append_left (by omega)]; rfl
    | succ i =>
      rw [List.getElem?_append_right (by rw [hb, Nat.add_mul]; omega), hb, show (i + 1) * c + y - c = i * c + y by rw [Nat.add_mul]; omega, h2 i y hy]
      rfl

theorem leavesBelow_get (L : List α) (r i y : ℕ) (hy : y < 2 ^ r) : (leavesBelow L r i)[y]? = L[i * 2 ^ r + y]? := by
  unfold leavesBelow
  rw [List.getElem?_take_of_lt hy, List.getElem?_drop]

/-- Place by place, apart from the end. -/
theorem withoutOne_get (L : List α) (t k : ℕ) (hk : 2 ^ k ∣ L.length) (x : ℕ) (hx : x < L.length - 2 ^ k) :
    (withoutOne L t k)[x]? = if x / 2 ^ k = t / 2 ^ k then L[L.length - 2 ^ k + x % 2 ^ k]? else L[x]? := by
  obtain ⟨c, hc⟩ := hk
  have hpos : 0 < 2 ^ k := by positivity
  have hd : L.length / 2 ^ k = c := by rw [hc, Nat.mul_div_cancel_left _ hpos]
  have hc0 : 0 < c := by
    rcases Nat.eq_zero_or_pos c with h | h
    · rw [h, Nat.mul_zero] at hc; omega
    · exact h
  have hlast : (c - 1) * 2 ^ k = L.length - 2 ^ k := by rw [hc, Nat.sub_mul, Nat.mul_comm, Nat.one_mul]
  have hlen : ∀ i < c, (leavesBelow L k i).length = 2 ^ k := by
    intro i hi
    unfold leavesBelow
    have : (i + 1) * 2 ^ k ≤ c * 2 ^ k := Nat.mul_le_mul_right _ hi
    rw [Nat.add_mul, Nat.one_mul, Nat.mul_comm c, ← hc] at this
    rw [List.length_take, List.length_drop]
    omega
  unfold withoutOne
  rw [hd]
  obtain ⟨h1, h2⟩ := flatten_blocks (2 ^ k) (((List.range (c - 1)).map (leavesBelow L k)).set (t / 2 ^ k) (leavesBelow L k (c - 1))) (by
    intro b hb
    rcases List.mem_or_eq_of_mem_set hb with h | rfl
    · obtain ⟨i, hi, rfl⟩ := List.mem_map.1 h
      exact hlen i (by have := List.mem_range.1 hi; omega)
    · exact hlen _ (by omega))
  rw [List.length_set, List.length_map, List.length_range, hlast] at h1
  rw [List.getElem?_append_left (by omega)]
  have hy : x % 2 ^ k < 2 ^ k := Nat.mod_lt _ hpos
  have hxi : x / 2 ^ k < c - 1 := by
    rw [Nat.div_lt_iff_lt_mul hpos, hlast]; exact hx
  have hsplit : x = x / 2 ^ k * 2 ^ k + x % 2 ^ k := by rw [Nat.mul_comm]; exact (Nat.div_add_mod x _).symm
  conv_lhs => rw [hsplit]
  rw [h2 _ _ hy, List.getElem?_set]
  by_cases e : t / 2 ^ k = x / 2 ^ k
  · rw [if_pos e, if_pos e.symm, if_pos (by simpa [e] using hxi), Option.bind_some, leavesBelow_get L k _ _ hy, hlast]
  · rw [if_neg e, if_neg (fun h => e h.symm), List.getElem?_map, List.getElem?_range hxi, Option.map_some, Option.bind_some,
      leavesBelow_get L k _ _ hy, ← hsplit]

theorem tail_get (g : ℕ → List α) (q y : ℕ) (hy : y < 2 ^ q) : ∀ k, q < k → (∀ j < k, (g j).length = 2 ^ j) →
    (((List.range k).reverse.map g).flatten)[2 ^ k - 2 ^ (q + 1) + y]? = (g q)[y]?
  | 0, h, _ => by omega
  | k + 1, h, hg => by
    rw [List.range_succ, List.reverse_append, List.reverse_singleton, List.singleton_append, List.map_cons, List.flatten_cons]
    have hk := hg k (by omega)
    have h2 : 2 ^ (k + 1) = 2 ^ k + 2 ^ k := by rw [pow_succ]; ring
    rcases Nat.lt_or_ge q k with hq | hq
    · have hle : 2 ^ (q + 1) ≤ 2 ^ k := Nat.pow_le_pow_right (by omega) hq
      rw [List.getElem?_append_right (by omega), hk, show 2 ^ (k + 1) - 2 ^ (q + 1) + y - 2 ^ k = 2 ^ k - 2 ^ (q + 1) + y by omega]
      exact tail_get g q y hy k hq fun j hj => hg j (by omega)
    · obtain rfl : q = k := by omega
      rw [Nat.sub_self, Nat.zero_add, List.getElem?_append_left (by omega)]

theorem leavesBelow_length (L : List α) (r i : ℕ) (h : (i + 1) * 2 ^ r ≤ L.length) : (leavesBelow L r i).length = 2 ^ r := by
  unfold leavesBelow
  rw [Nat.add_mul, Nat.one_mul] at h
  rw [List.length_take, List.length_drop]
  omega

/-- The leaf `x` of the subtree with the gap, `q` the row in which `x` and `t` are below two siblings. -/
theorem withoutOne_end (L : List α) (t k : ℕ) (ht : t < L.length) (hk : 2 ^ k ∣ L.length) (q x : ℕ) (hq : q < k)
    (hx : x / 2 ^ (q + 1) = t / 2 ^ (q + 1)) (hne : x / 2 ^ q ≠ t / 2 ^ q) :
    (withoutOne L t k)[L.length - 2 ^ (q + 1) + x % 2 ^ q]? = L[x]? := by
  obtain ⟨c, hc⟩ := hk
  have hpos : 0 < 2 ^ k := by positivity
  have hd : L.length / 2 ^ k = c := by rw [hc, Nat.mul_div_cancel_left _ hpos]
  have hc0 : 0 < c := by
    rcases Nat.eq_zero_or_pos c with h | h
    · rw [h, Nat.mul_zero] at hc; omega
    · exact h
  have hblock : ∀ i < c, (leavesBelow L k i).length = 2 ^ k := by
    intro i hi
    apply leavesBelow_length
    rw [hc, Nat.mul_comm]
    exact Nat.mul_le_mul_left _ hi
  have hlast : (c - 1) * 2 ^ k = L.length - 2 ^ k := by rw [hc, Nat.sub_mul, Nat.mul_comm, Nat.one_mul]
  have hnk : 2 ^ k ≤ L.length := by rw [hc]; exact Nat.le_mul_of_pos_right _ hc0
  unfold withoutOne
  rw [hd]
  have h1 := (flatten_blocks (2 ^ k) (((List.range (c - 1)).map (leavesBelow L k)).set (t / 2 ^ k) (leavesBelow L k (c - 1))) (by
    intro b hb
    rcases List.mem_or_eq_of_mem_set hb with h | rfl
    · obtain ⟨i, hi, rfl⟩ := List.mem_map.1 h
      exact hblock i (by have := List.mem_range.1 hi; omega)
    · exact hblock _ (by omega))).1
  rw [List.length_set, List.length_map, List.length_range, hlast] at h1
  have hle : 2 ^ (q + 1) ≤ 2 ^ k := Nat.pow_le_pow_right (by omega) hq
  have hy : x % 2 ^ q < 2 ^ q := Nat.mod_lt _ (by positivity)
  rw [List.getElem?_append_right (by omega), h1,
    show L.length - 2 ^ (q + 1) + x % 2 ^ q - (L.length - 2 ^ k) = 2 ^ k - 2 ^ (q + 1) + x % 2 ^ q by omega,
    tail_get _ q _ hy k hq (by
      intro j hj
      apply leavesBelow_length
      have hj2 : 2 ^ (j + 1) ∣ L.length := ⟨2 ^ (k - (j + 1)) * c, by rw [hc, ← Nat.mul_assoc, ← pow_add]; congr 2; omega⟩
      obtain ⟨d, hd'⟩ := hj2
      have htd : t / 2 ^ (j + 1) < d := by
        rw [Nat.div_lt_iff_lt_mul (by positivity), Nat.mul_comm, ← hd']; exact ht
      have hup : t / 2 ^ (j + 1) = t / 2 ^ j / 2 := by rw [pow_succ, Nat.div_div_eq_div_mul]
      have := Nat.zero_le (t / 2 ^ j)
      have : (t / 2 ^ j ^^^ 1) + 1 ≤ 2 * d := by
        rw [xor_one_cases]
        split <;> omega
      calc ((t / 2 ^ j ^^^ 1) + 1) * 2 ^ j ≤ 2 * d * 2 ^ j := Nat.mul_le_mul_right _ this
        _ = L.length := by rw [hd', pow_succ]; ring)]
  have hupx : x / 2 ^ (q + 1) = x / 2 ^ q / 2 := by rw [pow_succ, Nat.div_div_eq_div_mul]
  have hupt : t / 2 ^ (q + 1) = t / 2 ^ q / 2 := by rw [pow_succ, Nat.div_div_eq_div_mul]
  have := Nat.zero_le (t / 2 ^ q)
  have := Nat.zero_le (x / 2 ^ q)
  have hxe : t / 2 ^ q ^^^ 1 = x / 2 ^ q := by
    rw [xor_one_cases]
    split <;> omega
  rw [hxe, leavesBelow_get L q _ _ hy, Nat.mul_comm, Nat.div_add_mod]

end Settle

end Utreexo
