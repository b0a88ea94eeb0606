import Verif.Props.Compare

/-!
# Undoing batches from elsewhere

C50: `Undo` with a batch that this forest did not hand out. Also `Modify` through the base class (C18).
-/

set_option linter.unusedSectionVars false

namespace Utreexo
open Spec Equiv Ram

variable {H : Type} [DecidableEq H] [HashOps H]

/-! ## C18: `Modify` through the base class -/

theorem base_modify (s : RamForest H) (leaves : List (Leaf H)) (targets : List ℕ) (u : UndoBatch H) (s' : RamForest H)
    (h : modify s leaves targets = .ok (true, some u, s')) : Acc.modify vt Ram.add s leaves targets = .ok (true, s') := by
  unfold Ram.modify at h
  unfold Acc.modify
  cases hr : Acc.remove vt s targets with
  | error e => rw [hr] at h; cases h
  | ok r =>
    obtain ⟨b, s1⟩ := r
    rw [hr, ok_bind] at h
    rw [ok_bind]
    cases b with
    | false => simp [pure, Except.pure] at h
    | true =>
      simp only [Bool.not_true, Bool.false_eq_true, if_false] at h ⊢
      cases hb : buildUndoBatch s1 leaves.length targets with
      | error e => rw [hb] at h; cases h
      | ok r =>
        rw [hb, ok_bind] at h
        cases r with
        | none => simp [pure, Except.pure] at h
        | some u' =>
          simp only at h
          cases ha : Ram.add s1 leaves with
          | error e => rw [ha] at h; cases h
          | ok s2 =>
            rw [ha, ok_bind] at h
            rw [ok_bind]
            simp only [pure, Except.pure, Except.ok.injEq, Prod.mk.injEq, true_and] at h ⊢
            exact h.2

/-- C18, C19: `Accumulator::Modify` without an undo batch, called on a forest, has the same effect on the forest. -/
theorem C18_base (s : RamForest H) (st : List (UndoBatch H × RamForest H)) (h : Run s st) (L : List H) (hL : Represents s L)
    (leaves : List (Leaf H)) (targets : List ℕ) :
    (Valid L (leaves.map Prod.fst) targets →
      ∃ u s', modify s leaves targets = .ok (true, some u, s') ∧ Acc.modify vt Ram.add s leaves targets = .ok (true, s')) ∧
    (¬ (targets.Pairwise (· < ·) ∧ ∀ t ∈ targets, t < L.length) →
      Acc.modify vt Ram.add s leaves targets = .ok (false, s)) := by
  constructor
  · intro hv
    obtain ⟨u, s', L', e1, -⟩ := C18_modify s st h L hL leaves targets hv
    exact ⟨u, s', e1, base_modify _ _ _ _ _ e1⟩
  · intro hn
    rw [← hL.count] at hn
    have hm := modify_insane s leaves targets hn
    unfold Ram.modify at hm
    unfold Acc.modify
    cases hr : Acc.remove vt s targets with
    | error e => rw [hr] at hm; cases hm
    | ok r =>
      obtain ⟨b, s1⟩ := r
      rw [hr, ok_bind] at hm
      rw [ok_bind]
      cases b with
      | false =>
        simp only [Bool.not_false, if_true, pure, Except.pure, Except.ok.injEq, Prod.mk.injEq, true_and] at hm ⊢
        exact hm
      | true =>
        exfalso
        simp only [Bool.not_true, Bool.false_eq_true, if_false] at hm
        have : Acc.remove vt s targets = .ok (false, s) := by
          unfold Acc.remove
          have h0 : targets.length ≠ 0 := by
            intro h0
            have := List.eq_nil_of_length_eq_zero h0
            subst this
            exact hn ⟨List.Pairwise.nil, by simp⟩
          rw [if_neg h0]
          obtain ⟨b, b1, b2⟩ := C07_checkTargetsSanity s.numLeaves targets
          dsimp only
          rw [b1, ok_bind]
          cases b with
          | false => rfl
          | true => exact absurd (b2.1 rfl) hn
        rw [hr] at this
        simp at this

/-! ## C50: undo with any batch that fits -/

/-- C50, as far as it holds: `Undo` accepts every batch that fits the forest, wherever it comes from. The forest then shows
a list of leaves of which the present one is the modification described by the batch. Missing: batches that do not fit, see
`C50_false`. -/
theorem C50_undo_partial (s : RamForest H) (st : List (UndoBatch H × RamForest H)) (h : Run s st) (L : List H)
    (hL : Represents s L) (u : UndoBatch H) (hf : Fits s L u) :
    ∃ s' L', undo s u = .ok (true, s') ∧ Run s' [] ∧ Represents s' L' ∧
      L'.length = L.length - u.numAdds + u.positions.length ∧
      Modified L' (L.drop (L.length - u.numAdds)) u.positions L := by
  obtain ⟨n, g, h1, h2, -⟩ := h.inv
  obtain rfl := hL.unique (h1.represents h2)
  obtain ⟨s', f, k1, k2, k3, k4, k5⟩ := foreign_step h1 h2 hf
  have hb := hf.bound
  have ht := hf.total
  have ha := hf.adds
  simp only [List.length_map, List.length_range] at hb ht ha ⊢
  refine ⟨s', _, k1, .foreign h hL hf k1, k2.represents ht, by simp, (List.range (n - u.numAdds)).map g, ?_, ?_⟩
  · rw [survivors_range]
    obtain ⟨f1, f2⟩ := sg_facts ht hf.sorted hb
    rw [Nat.add_sub_cancel] at f1 f2
    have := (range_perm f1 (by omega) f2).map f
    rw [List.map_map] at this
    refine (List.Perm.of_eq ?_).trans this
    apply List.map_congr_left
    intro x hx
    exact k5 x (List.mem_range.1 hx)
  · have e : (List.range (n - u.numAdds)).map g = ((List.range n).map g).take (n - u.numAdds) := by
      rw [← List.map_take, List.take_range, min_eq_left (by omega)]
    rw [e, List.take_append_drop]

/-- C50: doing the modification again, on the forest so obtained, gives the batch and the forest back (if deleting is
possible at all, that is below `2^32` leaves). -/
theorem C50_redo_partial (s : RamForest H) (st : List (UndoBatch H × RamForest H)) (h : Run s st) (L : List H)
    (hL : Represents s L) (u : UndoBatch H) (hf : Fits s L u)
    (hs : u.positions ≠ [] → L.length - u.numAdds + u.positions.length < 2 ^ 32) (leaves : List (Leaf H))
    (hl : leaves.map Prod.fst = L.drop (L.length - u.numAdds)) :
    ∃ s' s'', undo s u = .ok (true, s') ∧ modify s' leaves u.positions = .ok (true, some u, s'') ∧ Same s'' s := by
  obtain ⟨-, L', -, -, hL', hlen, hmod⟩ := C50_undo_partial s st h L hL u hf
  obtain ⟨n, g, h1, h2, -⟩ := h.inv
  obtain rfl := hL.unique (h1.represents h2)
  obtain ⟨s', f, k1, k2, k3, k4, k5⟩ := foreign_step h1 h2 hf
  obtain ⟨s1, L1, e1, e2, e3, e4, e5⟩ := C50_undo_partial s st h _ hL u hf
  rw [k1] at e1
  simp only [Except.ok.injEq, Prod.mk.injEq, true_and] at e1
  subst e1
  have ht := hf.total
  have ha := hf.adds
  simp only [List.length_map, List.length_range] at ht ha hs hl e4 e5
  obtain rfl := e3.unique (k2.represents ht)
  have hnd : ((List.range n).map g).Nodup := by
    apply List.Nodup.map_on _ List.nodup_range
    intro x hx y hy he
    exact h1.pos.inj (List.mem_range.1 hx) (List.mem_range.1 hy) he
  obtain ⟨K, c1, c2⟩ := e5
  have hll : leaves.length = u.numAdds := by
    have := congrArg List.length hl
    simp at this
    omega
  have hv : Valid ((List.range (n - u.numAdds + u.positions.length)).map f) (leaves.map Prod.fst) u.positions := by
    refine ⟨hf.sorted, ?_, ?_, ?_, ?_, ?_⟩
    · intro t ht
      have := hf.bound t ht
      simpa using this
    · rw [hl]; exact (List.drop_sublist _ _).nodup hnd
    · intro x hx hc
      rw [c2] at hnd
      rw [hl] at hc
      exact (List.nodup_append.1 hnd).2.2 x (c1.mem_iff.2 hx) x hc rfl
    · intro hp; simpa using hs hp
    · simp only [List.length_map, List.length_range]
      omega
  obtain ⟨s'', g', m1, m2, m3, m4⟩ := modify_step k2 ht (st := []) trivial hv
  rw [Nat.add_sub_cancel] at m2 m4
  refine ⟨s', s'', k1, ?_, ?_⟩
  · rw [m1, hll, ← k4]
  · have hr := m2.represents (by rw [hll]; omega)
    have e : (List.range (n - u.numAdds + leaves.length)).map g' = (List.range n).map g := by
      rw [m4, hl]
      have : (List.range (n - u.numAdds)).map (f ∘ (sg (n - u.numAdds + u.positions.length) (n - u.numAdds) u.positions
          (St.numRows (n - u.numAdds + u.positions.length)) 0).symm) = ((List.range n).map g).take (n - u.numAdds) := by
        rw [← List.map_take, List.take_range, min_eq_left (by omega)]
        apply List.map_congr_left
        intro x hx
        exact (k5 x (List.mem_range.1 hx)).symm
      rw [this, List.take_append_drop]
    rw [e] at hr
    exact hr.same hL

/-- C50: copies of a forest can use each other's batches: if `t` compares equal to the forest after a modification, the batch
of that modification leads from `t` to a forest equal to the one before, provided `t` has enough rows. -/
theorem C50_shared (s s' t : RamForest H) (st st' : List (UndoBatch H × RamForest H)) (u : UndoBatch H)
    (h : Run s' ((u, s) :: st)) (h' : Run t st') (heq : Ram.equal s' t = .ok true) (hrows : s.numLeaves ≤ 2 ^ (t.ext.length - 1)) :
    ∃ t', undo t u = .ok (true, t') ∧ Run t' [] ∧ Same t' s := by
  obtain ⟨n, g, h1, h2, n0, f0, D, a, rfl, i2, i3, i4, i5, rfl, i7, i8, -⟩ := h.inv
  obtain ⟨m, g', h3, h4, -⟩ := h'.inv
  rw [C48_forest s' t _ st' h h' _ _ (h1.represents h2) (h3.represents h4)] at heq
  simp only [Except.ok.injEq, decide_eq_true_eq] at heq
  have hlen := congrArg List.length heq
  simp only [List.length_map, List.length_range] at hlen
  subst hlen
  have hg : ∀ x, x < n0 - D.length + a → g x = g' x := by
    intro x hx
    have := congrArg (fun l => l[x]?) heq
    simp only [List.getElem?_map, List.getElem?_range hx, Option.map_some, Option.some.injEq] at this
    exact this
  have hne : t.ext.length ≠ 0 := by have := h3.cells.rows; omega
  obtain ⟨t', e1, e2, -⟩ := undo_ok i2 i3 i4 (fun x y hx hy he => i5.pos.inj hx hy he) h3 h4
    (fun x hx => by rw [← hg x (by omega)]; exact i7 x hx) (by
      rw [i5.num] at hrows
      have := (numRows_le_iff (n := n0) (by omega) (t.ext.length - 1)).2 hrows
      omega)
  have hr := e2.represents i2
  have hlen : D.length ≤ n0 := by
    have := sorted_length_add_le D 0 n0 i3 (fun x hx => ⟨Nat.zero_le _, i4 x hx⟩) (Nat.zero_le _)
    omega
  refine ⟨t', e1, .foreign h' (h3.represents h4) ⟨?_, i3, ?_, ?_, ?_, ?_, ?_⟩ e1, hr.same (i5.represents i2)⟩
  · simp [undoOf]
  · simpa [undoOf, Nat.sub_add_cancel hlen] using i4
  · simp [undoOf]
  · obtain ⟨f1, -⟩ := sg_facts i2 i3 i4
    simp only [undoOf, List.length_map, List.length_range, Nat.add_sub_cancel]
    rw [← List.map_take, List.take_range, min_eq_left (by omega)]
    have : (List.range (n0 - D.length)).map g' = (List.range' 0 (n0 - D.length)).map
        (f0 ∘ (sg n0 (n0 - D.length) D (St.numRows n0) 0).symm) := by
      rw [← List.range_eq_range']
      apply List.map_congr_left
      intro x hx
      rw [List.mem_range] at hx
      rw [← hg x (by omega)]; exact i7 x hx
    rw [this, ← List.map_append]
    have e : List.range' 0 (n0 - D.length) ++ List.range' (n0 - D.length) D.length = List.range n0 := by
      have := List.range'_append (s := 0) (m := n0 - D.length) (n := D.length) (step := 1)
      simp only [Nat.one_mul, Nat.zero_add] at this
      rw [this, List.range_eq_range', Nat.sub_add_cancel hlen]
    rw [e]
    apply List.Nodup.map_on _ List.nodup_range
    intro x hx y hy he
    rw [List.mem_range] at hx hy
    have hlt : ∀ x, x < n0 → (sg n0 (n0 - D.length) D (St.numRows n0) 0).symm x < n0 := by
      intro x hx
      by_contra hc
      have := f1 _ (Nat.le_of_not_lt hc)
      have := (sg n0 (n0 - D.length) D (St.numRows n0) 0).symm.injective this
      omega
    exact (sg n0 (n0 - D.length) D (St.numRows n0) 0).symm.injective (i5.pos.inj (hlt x hx) (hlt y hy) he)
  · simp only [undoOf, List.length_map, List.length_range]; omega
  · rw [i5.num] at hrows
    simp only [undoOf, List.length_map, List.length_range, Nat.add_sub_cancel]
    rw [Nat.sub_add_cancel hlen]; exact hrows

/-! ## Concrete cases -/

section Examples
attribute [local instance] toyOps

/-- A forest of seven leaves. -/
def seven : Res (RamForest ℕ) := do
  let (_, _, s) ← modify (mk 0) toyLeaves []
  return s

/-- A batch that fits it although it was not obtained from it: the last two leaves are taken back, and leaves 1 and 3 of the
forest before were 99 and 98. -/
example : seven.map (fun s => (s.ext.length, s.numLeaves)) = .ok (4, 7) ∧
    (do let (b, s') ← undo (← seven) (UndoBatch.mk 2 [1, 3] [98, 99])
        return (b, ← readLeafRange s' 0 s'.numLeaves)) = .ok (true, [11, 99, 12, 98, 13, 14, 15]) := by decide +kernel

example (s : RamForest ℕ) (hs : s.ext.length = 4) : Fits s (toyLeaves.map Prod.fst) (UndoBatch.mk 2 [1, 3] [98, 99]) := by
  refine ⟨by decide, by decide, by decide, by decide, by decide, by decide, ?_⟩
  rw [hs]
  decide

/-- C50 is false: `Undo` with a batch that does not fit

* may return false and still change the forest: undoing a batch a second time takes leaves away, but leaves the roots;
* may return true without restoring anything: with too few hashes a leaf with the hash zero appears, which cannot be proved;
* may violate an assertion (positions out of range) or access a row that does not exist (too few rows). -/
theorem C50_false :
    (do let s ← seven
        match ← modify s [(21, false)] [0, 3] with
        | (_, some u, t) =>
          let (b1, s1) ← undo t u
          let (b2, s2) ← undo s1 u
          return (b1, s1.numLeaves, b2, s2.numLeaves, (← Ram.roots s1) == (← Ram.roots s2))
        | _ => .error .exc) = .ok (true, 7, false, 6, true) ∧
    (do let (b, s') ← undo (← seven) (UndoBatch.mk 0 [0] [])
        return (b, s'.numLeaves, ← getLeaf s' 0, (← Acc.prove vt s' [0]).isSome)) = .ok (true, 8, 0, false) ∧
    (do let (b, _) ← undo (← seven) (UndoBatch.mk 0 [1, 20] [98, 99])
        return b) = .error .abort ∧
    (do let (b, _) ← undo (← seven) (UndoBatch.mk 0 [1, 3] [98, 99])
        return b) = .error .ub := by decide +kernel

end Examples

end Utreexo
