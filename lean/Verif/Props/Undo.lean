import Verif.Proof.UndoExact
import Verif.Proof.Counters
import Verif.Props.Foreign

/-!
# Exactly which batches `Undo` deals with as promised

C50: the batches for which the property holds are those that fit, and those that are refused before anything is taken away.
-/

set_option linter.unusedSectionVars false

namespace Utreexo
open Spec Equiv Ram

variable {H : Type} [DecidableEq H] [HashOps H]

/-- What C50 asks of a single call: `Undo` returns false and nothing can be seen to change, or it returns true and `Modify` with the
leaves taken back and the positions of the batch leads to the present forest and to the batch again. -/
def UndoPromise (s : RamForest H) (L : List H) (u : UndoBatch H) : Prop :=
  (∃ s', undo s u = .ok (false, s') ∧ Same s' s) ∨
  ∃ s' s'', undo s u = .ok (true, s') ∧
    modify s' ((L.drop (L.length - u.numAdds)).map fun h => (h, false)) u.positions = .ok (true, some u, s'') ∧ Same s'' s

theorem fits_of_redo {s s' s'' : RamForest H} {n : ℕ} {g : ℕ → H} {u : UndoBatch H} (hi : Inv s n g)
    (hn : n + u.positions.length ≤ 2 ^ 62) (hu : undo s u = .ok (true, s'))
    (hm : modify s' ((((List.range n).map g).drop (n - u.numAdds)).map fun h => (h, false)) u.positions = .ok (true, some u, s'')) :
    Fits s ((List.range n).map g) u := by
  have hne : s.ext.length ≠ 0 := by have := hi.cells.rows; omega
  obtain ⟨m1, m2, row0, row0', e1, e2, e3, e4⟩ := undo_true hne hu
  have hlen := modify_hashes_length hm
  have hadds : u.numAdds ≤ n := by
    have : u.numAdds = ((((List.range n).map g).drop (n - u.numAdds)).map fun h => (h, false)).length := by
      unfold Ram.modify at hm
      obtain ⟨⟨ok, s1⟩, -, hm⟩ := bind_eq_ok.1 hm
      cases ok with
      | false => cases hm
      | true =>
        simp only [Bool.not_true, Bool.false_eq_true, if_false] at hm
        obtain ⟨r, b1, hm⟩ := bind_eq_ok.1 hm
        cases r with
        | none => cases hm
        | some v =>
          obtain ⟨s2, -, hm⟩ := bind_eq_ok.1 hm
          have hv : v = u := Option.some.inj (Prod.mk.inj (Prod.mk.inj (Except.ok.inj hm)).2).1
          unfold buildUndoBatch at b1
          obtain ⟨q, -, b1⟩ := bind_eq_ok.1 b1
          have b1 := Except.ok.inj b1
          cases q with
          | none => cases b1
          | some q =>
            have b1 := Option.some.inj b1
            exact (congrArg UndoBatch.numAdds (b1.trans hv)).symm
    simp at this
    omega
  have h0 : sub64 s.numLeaves u.numAdds = n - u.numAdds := by rw [hi.num, sub64_ok hadds (by omega)]
  have h1 : sub64 (wrap64 (s.numLeaves + u.positions.length)) u.numAdds = n - u.numAdds + u.positions.length := by
    rw [hi.num, wrap64_ok (by omega), sub64_ok (by omega) (by omega)]; omega
  rw [h1] at e3 e4
  rw [h0, hi.num] at e1
  rw [h0] at e2
  have hsane : u.positions.Pairwise (· < ·) ∧ ∀ t ∈ u.positions, t < s'.numLeaves := by
    by_contra hc
    rw [modify_insane _ _ _ hc] at hm
    cases hm
  rw [e3] at hsane
  have hleaves : Leaves s.ext n g := by
    intro i hi'
    exact hi.cells.get 0 i (by simpa using hi')
  obtain ⟨m1', f1, f2⟩ := undoErase_ok (n' := n - u.numAdds) hi.num (by omega) hleaves u.numAdds (n - u.numAdds) s.posmap le_rfl
    (by omega) (upto_of_exact hi.pos (by omega))
  rw [Nat.sub_sub_self hadds, f1] at e1
  obtain rfl : m1' = m1 := (Prod.mk.inj (Except.ok.inj e1)).1
  have f3 := f2.exact (by omega)
  obtain ⟨g1, g2⟩ := undoPlace_true _ _ _ _ _ _ _ e2
  refine ⟨by simpa using hadds, hsane.1, by simpa using hsane.2, hlen, ?_, ?_, ?_⟩
  · simp only [List.length_map, List.length_range]
    rw [← List.map_take, List.take_range, min_eq_left (by omega), List.nodup_append]
    refine ⟨?_, g1, ?_⟩
    · apply List.Nodup.map_on _ List.nodup_range
      intro x hx y hy he
      rw [List.mem_range] at hx hy
      exact hi.pos.inj (by omega) (by omega) he
    · intro a ha b hb hab
      subst hab
      obtain ⟨x, hx, rfl⟩ := List.mem_map.1 ha
      have := g2 _ hb
      rw [(f3.find (g x) x).2 ⟨List.mem_range.1 hx, rfl⟩] at this
      cases this
  · simp only [List.length_map, List.length_range]; omega
  · simp only [List.length_map, List.length_range]
    exact (numRows_le_iff (n := n - u.numAdds + u.positions.length) (by omega) (s.ext.length - 1)).1 (by omega)

theorem refused_of_same {s s' : RamForest H} {n : ℕ} {g : ℕ → H} {u : UndoBatch H} (hi : Inv s n g)
    (hn : n + u.positions.length ≤ 2 ^ 62) (ha : u.numAdds < 2 ^ 64) (hu : undo s u = .ok (false, s')) (hs : Same s' s) :
    u.numAdds = 0 ∧ ∃ x hs, u.hashes = x :: hs ∧ (u.positions = [] ∨ ∃ p, p < n ∧ g p = x) := by
  have hne : s.ext.length ≠ 0 := by have := hi.cells.rows; omega
  have hleaves : Leaves s.ext n g := by
    intro i hi'
    exact hi.cells.get 0 i (by simpa using hi')
  have hno : ∀ m1, undoErase s (sub64 s.numLeaves u.numAdds) (s.numLeaves - sub64 s.numLeaves u.numAdds) s.posmap ≠
      .ok (m1, false) := by
    intro m1 hc
    rw [hi.num] at hc
    by_cases hadds : u.numAdds ≤ n
    · obtain ⟨m1', f1, -⟩ := undoErase_ok (n' := n - u.numAdds) hi.num (by omega) hleaves u.numAdds (n - u.numAdds) s.posmap le_rfl
        (by omega) (upto_of_exact hi.pos (by omega))
      rw [sub64_ok hadds (by omega), Nat.sub_sub_self hadds, f1] at hc
      cases hc
    · have : n - sub64 n u.numAdds = 0 := by
        unfold sub64
        rw [two64_eq]
        omega
      rw [this, undoErase] at hc
      cases hc
  rcases undo_false hne hu with ⟨m1, hc⟩ | ⟨m1, row0, row0', e1, e2, e3⟩
  · exact absurd hc (hno m1)
  · have hcount := hs.count
    rw [e3, hi.num] at hcount
    have h0 : u.numAdds = 0 := by
      unfold sub64 at hcount
      rw [two64_eq] at hcount
      omega
    refine ⟨h0, ?_⟩
    have h1 : sub64 (wrap64 (s.numLeaves + u.positions.length)) u.numAdds = n + u.positions.length := by
      rw [h0, hi.num, wrap64_ok (by omega), sub64_ok (by omega) (by omega), Nat.sub_zero]
    rw [h1, hi.num, hcount] at e2
    rw [hi.num, hcount, Nat.sub_self, undoErase] at e1
    obtain rfl : s.posmap = m1 := (Prod.mk.inj (Except.ok.inj e1)).1
    cases hh : u.hashes with
    | nil =>
      rw [hh, undoPlace] at e2
      simp at e2
    | cons x hs' =>
      refine ⟨x, hs', rfl, ?_⟩
      rw [hh, undoPlace, Nat.add_zero, wrap64_ok (by omega), vecResize_len] at e2
      by_cases hp : n ≥ n + u.positions.length
      · exact .inl (List.eq_nil_of_length_eq_zero (by omega))
      · rw [if_neg hp] at e2
        dsimp only at e2
        cases hf : PosMap.find s.posmap x with
        | some p => exact .inr ⟨p, (hi.pos.find x p).1 hf⟩
        | none =>
          rw [hf] at e2
          dsimp only at e2
          have := undoPlace_keeps _ _ _ _ _ _ _ _ e2 x n (by rw [PosMap.find_insert, if_pos rfl])
          rw [hs.find, hf] at this
          cases this

/-- C50, exactly: in a forest with any history, with fewer than `2^32` leaves before and after, `Undo` keeps the promise if and only if
the batch fits the forest, or takes no leaves back and has a first hash that cannot be placed, because there are no
positions or because it is a leaf already. -/
theorem C50_exact (s : RamForest H) (st : List (UndoBatch H × RamForest H)) (h : Run s st) (L : List H) (hL : Represents s L)
    (u : UndoBatch H) (ha : u.numAdds < 2 ^ 64) (hn : L.length + u.positions.length < 2 ^ 32) :
    UndoPromise s L u ↔
      Fits s L u ∨ (u.numAdds = 0 ∧ ∃ x hs, u.hashes = x :: hs ∧ (u.positions = [] ∨ x ∈ L)) := by
  obtain ⟨n, g, h1, h2, -⟩ := h.inv
  obtain rfl := hL.unique (h1.represents h2)
  have hn' : n + u.positions.length ≤ 2 ^ 62 := by
    simp only [List.length_map, List.length_range] at hn
    omega
  constructor
  · rintro (⟨s', e1, e2⟩ | ⟨s', s'', e1, e2, -⟩)
    · obtain ⟨f1, x, hs, f2, f3⟩ := refused_of_same h1 hn' ha e1 e2
      refine .inr ⟨f1, x, hs, f2, f3.imp id ?_⟩
      rintro ⟨p, p1, rfl⟩
      exact List.mem_map_of_mem (List.mem_range.2 p1)
    · simp only [List.length_map, List.length_range] at e2
      exact .inl (fits_of_redo h1 hn' e1 e2)
  · rintro (hf | ⟨f1, x, hs, f2, f3⟩)
    · obtain ⟨s', s'', e1, e2, e3⟩ := C50_redo_partial s st h _ hL u hf (by omega)
        ((((List.range n).map g).drop (((List.range n).map g).length - u.numAdds)).map fun h => (h, false))
        (by rw [List.map_map]; exact List.map_id _)
      exact .inr ⟨s', s'', e1, e2, e3⟩
    · obtain ⟨s', e1, e2⟩ := undo_refused h1 hn' f1 f2 (f3.imp id (by
        intro hx
        obtain ⟨p, p1, p2⟩ := List.mem_map.1 hx
        exact ⟨p, List.mem_range.1 p1, p2⟩))
      exact .inl ⟨s', e1, (e2.represents h2).same hL⟩

/-! ## Concrete cases -/

/-- With too few hashes the promise is broken in every forest. -/
example (s : RamForest H) (st : List (UndoBatch H × RamForest H)) (h : Run s st) (L : List H) (hL : Represents s L)
    (hn : L.length + 1 < 2 ^ 32) : ¬ UndoPromise s L (UndoBatch.mk 0 [0] []) := by
  rw [C50_exact s st h L hL _ (by simp) (by simpa using hn)]
  rintro (hf | ⟨-, x, hs, hc, -⟩)
  · have := hf.length
    simp at this
  · simp at hc

section Examples
attribute [local instance] toyOps

/-- The two kinds of batches that are refused without a visible change, and one that fits. -/
example : (do
      let s ← seven
      let (b1, s1) ← undo s (UndoBatch.mk 0 [] [99])
      let (b2, s2) ← undo s (UndoBatch.mk 0 [0] [12])
      let (b3, s3) ← undo s (UndoBatch.mk 0 [0] [99])
      return ((b1, ← Ram.equal s s1), (b2, ← Ram.equal s s2), b3, ← readLeafRange s3 0 s3.numLeaves)) =
    .ok ((false, true), (false, true), true, [99, 17, 15, 16, 11, 12, 13, 14]) := by decide +kernel

end Examples

end Utreexo
