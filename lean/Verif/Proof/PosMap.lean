import Verif.Model.Accumulator
import Verif.Proof.Pos
import Verif.Spec.Transform
import Mathlib.Data.List.Nodup

/-! # The position map -/

namespace Utreexo
open Spec

namespace PosMap
variable {H : Type} [DecidableEq H]

/-- No key occurs twice. -/
def Uniq (m : PosMap H) : Prop := (m.map Prod.fst).Nodup

theorem find_filter (m : PosMap H) (h k : H) : find (m.filter fun e => e.1 ≠ h) k =
    if k = h then none else find m k := by
  induction m with
  | nil => simp [find]
  | cons e m ih =>
    obtain ⟨a, v⟩ := e
    by_cases ha : a = h
    · subst ha
      simp only [ne_eq, List.filter_cons, not_true_eq_false, decide_false, Bool.false_eq_true, if_false]
      simp only [ne_eq] at ih
      rw [ih]
      by_cases hk : k = a
      · simp [hk]
      · simp [find, hk, Ne.symm hk]
    · simp only [ne_eq, List.filter_cons, ha, not_false_eq_true, decide_true, if_true, find]
      simp only [ne_eq] at ih
      by_cases hk : a = k
      · subst hk; simp [ha]
      · simp only [hk, if_false]; exact ih

theorem find_erase (m : PosMap H) (h k : H) : find (erase m h) k = if k = h then none else find m k :=
  find_filter m h k

theorem find_insert (m : PosMap H) (h : H) (v : Nat) (k : H) :
    find (insert m h v) k = if k = h then some v else find m k := by
  unfold insert
  rw [find]
  by_cases hk : k = h
  · simp [hk]
  · rw [if_neg (Ne.symm hk), find_erase, if_neg hk, if_neg hk]

theorem Uniq.erase {m : PosMap H} (hu : Uniq m) (h : H) : Uniq (erase m h) := by
  unfold Uniq at *
  unfold PosMap.erase
  exact (List.Sublist.map Prod.fst List.filter_sublist).nodup hu

theorem find_none_iff {m : PosMap H} {h : H} : find m h = none ↔ h ∉ m.map Prod.fst := by
  induction m with
  | nil => simp [find]
  | cons e m ih =>
    obtain ⟨a, v⟩ := e
    rw [find]
    by_cases ha : a = h
    · subst ha; simp
    · rw [if_neg ha, ih]; simp [Ne.symm ha]

theorem Uniq.insert {m : PosMap H} (hu : Uniq m) (h : H) (v : Nat) : Uniq (insert m h v) := by
  unfold Uniq PosMap.insert
  rw [List.map_cons, List.nodup_cons]
  refine ⟨?_, hu.erase h⟩
  rw [← find_none_iff, find_erase]; simp

theorem erase_of_none {m : PosMap H} {h : H} (hf : find m h = none) : erase m h = m := by
  unfold erase
  rw [List.filter_eq_self]
  intro e he
  rw [find_none_iff] at hf
  simp only [ne_eq, decide_not, Bool.not_eq_eq_eq_not, Bool.not_true, decide_eq_false_iff_not]
  intro hc
  exact hf (hc ▸ List.mem_map_of_mem he)

theorem length_erase {m : PosMap H} (hu : Uniq m) {h : H} {p : Nat} (hf : find m h = some p) :
    (erase m h).length + 1 = m.length := by
  induction m with
  | nil => simp [find] at hf
  | cons e m ih =>
    obtain ⟨a, v⟩ := e
    unfold Uniq at hu
    rw [List.map_cons, List.nodup_cons] at hu
    by_cases ha : a = h
    · subst ha
      have : erase m a = m := erase_of_none (find_none_iff.2 hu.1)
      unfold erase at *
      simp only [ne_eq, List.filter_cons, not_true_eq_false, decide_false, Bool.false_eq_true, if_false]
      simp only [ne_eq] at this
      rw [this]; simp
    · rw [find, if_neg ha] at hf
      have := ih hu.2 hf
      unfold erase at *
      simp only [ne_eq, List.filter_cons, ha, not_false_eq_true, decide_true, if_true, List.length_cons]
      simp only [ne_eq] at this
      omega

theorem length_insert_new {m : PosMap H} {h : H} {v : Nat} (hf : find m h = none) :
    (insert m h v).length = m.length + 1 := by
  unfold insert
  rw [List.length_cons, erase_of_none hf]

theorem length_insert_old {m : PosMap H} (hu : Uniq m) {h : H} {p v : Nat} (hf : find m h = some p) :
    (insert m h v).length = m.length := by
  unfold insert
  rw [List.length_cons, length_erase hu hf]

/-! ## Shifting the positions of some hashes -/

theorem shift_find (off : Nat) (m : PosMap H) (x h : H) : find (Acc.shiftPos off m x) h =
    if h = x then (find m h).map (fun p => wrap64 (p + off)) else find m h := by
  unfold Acc.shiftPos
  cases hx : find m x with
  | none =>
    by_cases hh : h = x
    · subst hh; simp [hx]
    · simp [hh]
  | some p =>
    simp only
    rw [find_insert]
    by_cases hh : h = x
    · subst hh; simp [hx]
    · simp [hh]

theorem shift_uniq {off : Nat} {m : PosMap H} (hu : Uniq m) (x : H) :
    Uniq (Acc.shiftPos off m x) ∧ (Acc.shiftPos off m x).length = m.length := by
  unfold Acc.shiftPos
  cases hx : find m x with
  | none => exact ⟨hu, rfl⟩
  | some p => exact ⟨hu.insert _ _, length_insert_old hu hx⟩

theorem shiftAll_find (off : Nat) : ∀ (xs : List H) (m : PosMap H), xs.Nodup → ∀ h,
    find (xs.foldl (Acc.shiftPos off) m) h =
      if h ∈ xs then (find m h).map (fun p => wrap64 (p + off)) else find m h := by
  intro xs
  induction xs with
  | nil => intro m _ h; simp
  | cons x xs ih =>
    intro m hnd h
    rw [List.nodup_cons] at hnd
    rw [List.foldl_cons, ih _ hnd.2, shift_find]
    by_cases hh : h = x
    · subst hh; simp [hnd.1]
    · simp [hh]

theorem shiftAll_uniq (off : Nat) : ∀ (xs : List H) {m : PosMap H}, Uniq m →
    Uniq (xs.foldl (Acc.shiftPos off) m) ∧ (xs.foldl (Acc.shiftPos off) m).length = m.length := by
  intro xs
  induction xs with
  | nil => intro m hu; exact ⟨hu, rfl⟩
  | cons x xs ih =>
    intro m hu
    have h1 := shift_uniq (off := off) hu x
    have h2 := ih h1.1
    rw [List.foldl_cons]
    exact ⟨h2.1, h2.2.trans h1.2⟩

/-- Where a slot goes when two ranges are exchanged. -/
def swapIdx (a b len p : Nat) : Nat :=
  if a ≤ p ∧ p < a + len then b + (p - a)
  else if b ≤ p ∧ p < b + len then a + (p - b)
  else p

theorem swapIdx_invol {a b len : Nat} (h : a + len ≤ b ∨ b + len ≤ a) (p : Nat) :
    swapIdx a b len (swapIdx a b len p) = p := by
  unfold swapIdx; split_ifs <;> omega

theorem swapIdx_lt {a b len n p : Nat} (ha : a + len ≤ n) (hb : b + len ≤ n) :
    swapIdx a b len p < n ↔ p < n := by
  unfold swapIdx; split_ifs <;> omega

theorem swapRanges_swapIdx {α : Type} (a b len : Nat) (f : Nat → α) :
    swapRanges a b len f = fun p => f (swapIdx a b len p) := by
  funext p; unfold swapRanges swapIdx; split_ifs <;> rfl

/-- The two loops of `UpdatePositionMapForRange` exchange the positions. -/
theorem swap_find {m : PosMap H} {a b len n : Nat} (hn : n < 2 ^ 63) (ha : a + len ≤ n) (hb : b + len ≤ n)
    (hab : a + len ≤ b ∨ b + len ≤ a) {xs ys : List H} (hx : xs.Nodup) (hy : ys.Nodup)
    (hlt : ∀ h p, find m h = some p → p < n)
    (hxs : ∀ h p, find m h = some p → (h ∈ xs ↔ a ≤ p ∧ p < a + len))
    (hys : ∀ h p, find m h = some p → (h ∈ ys ↔ b ≤ p ∧ p < b + len)) (h : H) :
    find (ys.foldl (Acc.shiftPos (sub64 a b)) (xs.foldl (Acc.shiftPos (sub64 b a)) m)) h =
      (find m h).map (swapIdx a b len) := by
  rw [shiftAll_find _ _ _ hy, shiftAll_find _ _ _ hx]
  cases hm : find m h with
  | none => simp
  | some p =>
    have h1 := hxs h p hm
    have h2 := hys h p hm
    have h3 := hlt h p hm
    simp only [h1, h2, Option.map_some]
    unfold swapIdx wrap64 sub64
    rw [two64_eq]
    by_cases c1 : a ≤ p ∧ p < a + len
    · rw [if_pos c1, if_neg (by omega), if_pos c1]
      congr 1; omega
    · rw [if_neg c1, if_neg c1]
      by_cases c2 : b ≤ p ∧ p < b + len
      · rw [if_pos c2, if_pos c2, Option.map_some]; congr 1; omega
      · rw [if_neg c2, if_neg c2]

/-! ## Maps that hold exactly the leaves -/

/-- `m` maps exactly the leaves `f 0, ..., f (n-1)` to their positions. -/
structure Exact (m : PosMap H) (f : Nat → H) (n : Nat) : Prop where
  uniq : Uniq m
  len : m.length = n
  find : ∀ h p, PosMap.find m h = some p ↔ p < n ∧ f p = h

theorem Exact.inj {m : PosMap H} {f : Nat → H} {n : Nat} (e : Exact m f n) {p q : Nat} (hp : p < n)
    (hq : q < n) (h : f p = f q) : p = q := by
  have h1 := (e.find (f p) p).2 ⟨hp, rfl⟩
  have h2 := (e.find (f p) q).2 ⟨hq, h.symm⟩
  rw [h1] at h2; exact Option.some.inj h2

theorem Exact.congr {m : PosMap H} {f g : Nat → H} {n : Nat} (e : Exact m f n)
    (h : ∀ p, p < n → f p = g p) : Exact m g n := by
  refine ⟨e.uniq, e.len, fun k p => ?_⟩
  rw [e.find]
  constructor <;> rintro ⟨h1, h2⟩
  · exact ⟨h1, (h p h1) ▸ h2⟩
  · exact ⟨h1, (h p h1).symm ▸ h2⟩

theorem Exact.map_nodup {m : PosMap H} {f : Nat → H} {n : Nat} (e : Exact m f n) {a len : Nat}
    (h : a + len ≤ n) : ((List.range' a len).map f).Nodup := by
  apply List.Nodup.map_on _ List.nodup_range'
  intro x hx y hy he
  rw [List.mem_range'_1] at hx hy
  exact e.inj (by omega) (by omega) he

theorem Exact.mem_range {m : PosMap H} {f : Nat → H} {n : Nat} (e : Exact m f n) {a len : Nat}
    (ha : a + len ≤ n) {h : H} {p : Nat} (hf : PosMap.find m h = some p) :
    h ∈ (List.range' a len).map f ↔ a ≤ p ∧ p < a + len := by
  obtain ⟨h1, h2⟩ := (e.find h p).1 hf
  rw [List.mem_map]
  constructor
  · rintro ⟨q, hq, he⟩
    rw [List.mem_range'_1] at hq
    have := e.inj (p := q) (q := p) (by omega) h1 (he.trans h2.symm)
    omega
  · intro hp
    exact ⟨p, by rw [List.mem_range'_1]; omega, h2⟩

/-- `UpdatePositionMapForRange` follows a swap of two ranges of leaves. -/
theorem Exact.swap {m : PosMap H} {f : Nat → H} {a b len n : Nat} (e : Exact m f n) (hn : n < 2 ^ 63)
    (ha : a + len ≤ n) (hb : b + len ≤ n) (hab : a + len ≤ b ∨ b + len ≤ a) :
    Exact (((List.range' b len).map f).foldl (Acc.shiftPos (sub64 a b))
      (((List.range' a len).map f).foldl (Acc.shiftPos (sub64 b a)) m)) (swapRanges a b len f) n := by
  have h1 := shiftAll_uniq (sub64 b a) ((List.range' a len).map f) e.uniq
  have h2 := shiftAll_uniq (sub64 a b) ((List.range' b len).map f) h1.1
  refine ⟨h2.1, h2.2.trans (h1.2.trans e.len), ?_⟩
  intro h p
  rw [swap_find hn ha hb hab (e.map_nodup ha) (e.map_nodup hb) (fun h p hp => ((e.find h p).1 hp).1)
    (fun h p hp => e.mem_range ha hp) (fun h p hp => e.mem_range hb hp), Option.map_eq_some_iff,
    swapRanges_swapIdx]
  constructor
  · rintro ⟨q, hq, rfl⟩
    obtain ⟨g1, g2⟩ := (e.find h q).1 hq
    exact ⟨(swapIdx_lt ha hb).2 g1, by simp only [swapIdx_invol hab]; exact g2⟩
  · rintro ⟨g1, g2⟩
    exact ⟨swapIdx a b len p, (e.find _ _).2 ⟨(swapIdx_lt ha hb).2 g1, g2⟩, swapIdx_invol hab p⟩

end PosMap
end Utreexo
