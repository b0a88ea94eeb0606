import Verif.Proof.SelfRam
import Verif.Proof.Total

/-! # What the answer of `Undo` tells about the batch -/

set_option linter.unusedSectionVars false

namespace Utreexo
open Spec Equiv

variable {H : Type} [DecidableEq H] [HashOps H]

namespace Ram

theorem nodeReHash_ext (s : RamForest H) (d : RNode H) : After (nodeReHash s d) fun r => r.ext.length = s.ext.length := by
  unfold nodeReHash
  exact After.seq fun _ => After.seq fun _ => After.seq fun _ => After.seq fun _ => After.seq fun _ => After.seq fun _ =>
    After.seq fun _ => After.seq fun _ => After.pure (by simp)

theorem undoRehashRow_ext : ∀ (ds : List (RNode H)) (s : RamForest H) (next : List (RNode H)),
    After (undoRehashRow ds s next) fun r => r.1.ext.length = s.ext.length ∧ r.1.numLeaves = s.numLeaves := by
  intro ds
  induction ds with
  | nil => intro s next; exact After.ok ⟨rfl, rfl⟩
  | cons d ds ih =>
    intro s next r hr
    rw [undoRehashRow] at hr
    obtain ⟨s1, e1, hr⟩ := bind_eq_ok.1 hr
    obtain ⟨q, -, hr⟩ := bind_eq_ok.1 hr
    have l1 := nodeReHash_ext s d s1 e1
    have n1 := nodeReHash_num s d s1 e1
    dsimp only at l1 n1
    cases q with
    | none =>
      obtain ⟨g1, g2⟩ := ih _ _ r hr
      exact ⟨by rw [g1, l1], by rw [g2, n1]⟩
    | some p =>
      obtain ⟨g1, g2⟩ := ih _ _ r hr
      exact ⟨by rw [g1, l1], by rw [g2, n1]⟩

theorem undoRehash_ext : ∀ (k r : ℕ) (dirt : List (RNode H)) (s : RamForest H),
    After (undoRehash k r dirt s) fun s' => s'.numLeaves = s.numLeaves ∧ (k = 0 ∨ r + k ≤ s.ext.length) := by
  intro k
  induction k with
  | zero => intro r dirt s; exact After.ok ⟨rfl, .inl rfl⟩
  | succ k ih =>
    intro r dirt s a ha
    rw [undoRehash] at ha
    obtain ⟨row, e1, ha⟩ := bind_eq_ok.1 ha
    obtain ⟨sz, -, ha⟩ := bind_eq_ok.1 ha
    dsimp only at ha
    obtain ⟨⟨s2, nx⟩, e2, ha⟩ := bind_eq_ok.1 ha
    have g := undoRehashRow_ext _ _ _ _ e2
    simp only [List.length_set] at g
    obtain ⟨g1, g2⟩ := g
    obtain ⟨i1, i2⟩ := ih _ _ _ a ha
    have hr := (List.getElem?_eq_some_iff.1 (vecGet_get e1)).1
    refine ⟨by rw [i1, g2], .inr ?_⟩
    rcases i2 with rfl | i2
    · omega
    · dsimp only at i2
      omega

theorem undoSwaps_num : ∀ (l : List St.Swap) (s : RamForest H),
    After (undoSwaps l s) fun r => r.numLeaves = s.numLeaves ∧ r.ext.length = s.ext.length := by
  intro l
  induction l with
  | nil => intro s; exact After.ok ⟨rfl, rfl⟩
  | cons sw l ih =>
    intro s r hr
    rw [undoSwaps] at hr
    obtain ⟨s1, h1, hr⟩ := bind_eq_ok.1 hr
    obtain ⟨s2, h2, hr⟩ := bind_eq_ok.1 hr
    obtain ⟨g1, g2⟩ := ih s2 r hr
    have a1 := swapRange_num _ _ _ _ _ h2
    have a2 := Acc.updatePosRange_num _ _ _ _ _ h1
    have a3 := updatePosRange_ext _ _ _ _ _ h1
    have a4 : s2.ext.length = s1.ext.length := by
      unfold swapRange at h2
      obtain ⟨_, -, h2⟩ := bind_eq_ok.1 h2
      obtain ⟨_, -, h2⟩ := bind_eq_ok.1 h2
      obtain ⟨_, -, h2⟩ := bind_eq_ok.1 h2
      obtain ⟨_, -, h2⟩ := bind_eq_ok.1 h2
      obtain ⟨_, -, h2⟩ := bind_eq_ok.1 h2
      injection h2 with h2
      rw [← h2]; simp
    exact ⟨by rw [g1, a1, a2], by rw [g2, a4, a3]⟩

theorem undoPlace_true (n0 : ℕ) : ∀ (hs : List H) (i : ℕ) (row row' : List H) (m m' : PosMap H),
    undoPlace n0 hs i row m = .ok (row', m', true) → hs.Nodup ∧ ∀ x ∈ hs, PosMap.find m x = none := by
  intro hs
  induction hs with
  | nil => intro i row row' m m' _; simp
  | cons h hs ih =>
    intro i row row' m m' e
    rw [undoPlace] at e
    split at e
    · simp at e
    · dsimp only at e
      split at e
      · simp at e
      · rename_i hf
        obtain ⟨g1, g2⟩ := ih _ _ _ _ _ e
        have g3 : ∀ x ∈ hs, x ≠ h ∧ PosMap.find m x = none := by
          intro x hx
          have := g2 x hx
          rw [PosMap.find_insert] at this
          split at this
          · simp at this
          · rename_i hne; exact ⟨fun hc => hne (by simp [hc]), this⟩
        refine ⟨List.nodup_cons.2 ⟨fun hc => (g3 h hc).1 rfl, g1⟩, ?_⟩
        intro x hx
        rcases List.mem_cons.1 hx with rfl | hx
        · exact hf
        · exact (g3 x hx).2

theorem undoPlace_keeps (n0 : ℕ) : ∀ (hs : List H) (i : ℕ) (row row' : List H) (m m' : PosMap H) (b : Bool),
    undoPlace n0 hs i row m = .ok (row', m', b) → ∀ x p, PosMap.find m x = some p → PosMap.find m' x = some p := by
  intro hs
  induction hs with
  | nil =>
    intro i row row' m m' b e x p hx
    rw [undoPlace] at e
    simp only [Except.ok.injEq, Prod.mk.injEq] at e
    rw [← e.2.1]; exact hx
  | cons h hs ih =>
    intro i row row' m m' b e x p hx
    rw [undoPlace] at e
    split at e
    · simp only [Except.ok.injEq, Prod.mk.injEq] at e
      rw [← e.2.1]; exact hx
    · dsimp only at e
      split at e
      · simp only [Except.ok.injEq, Prod.mk.injEq] at e
        rw [← e.2.1]; exact hx
      · rename_i hf
        refine ih _ _ _ _ _ _ e x p ?_
        rw [PosMap.find_insert, if_neg]
        · exact hx
        · intro hc
          rw [hc, hf] at hx
          simp at hx

/-- The parts of a successful `Undo`. -/
theorem undo_true {s s' : RamForest H} {u : UndoBatch H} (hne : s.ext.length ≠ 0) (h : undo s u = .ok (true, s')) :
    ∃ m1 m2 row0 row0', undoErase s (sub64 s.numLeaves u.numAdds) (s.numLeaves - sub64 s.numLeaves u.numAdds) s.posmap =
        .ok (m1, true) ∧
      undoPlace (sub64 s.numLeaves u.numAdds) u.hashes 0 row0 m1 = .ok (row0', m2, true) ∧
      s'.numLeaves = sub64 (wrap64 (s.numLeaves + u.positions.length)) u.numAdds ∧
      St.numRows (sub64 (wrap64 (s.numLeaves + u.positions.length)) u.numAdds) < s.ext.length := by
  unfold undo at h
  rw [if_neg hne] at h
  dsimp only at h
  obtain ⟨swaps, -, h⟩ := bind_eq_ok.1 h
  obtain ⟨⟨m1, ok1⟩, e1, h⟩ := bind_eq_ok.1 h
  cases ok1 with
  | false => cases h
  | true =>
    simp only [Bool.not_true, Bool.false_eq_true, if_false] at h
    obtain ⟨row0, e2, h⟩ := bind_eq_ok.1 h
    obtain ⟨⟨row0', m2, ok2⟩, e3, h⟩ := bind_eq_ok.1 h
    cases ok2 with
    | false => cases h
    | true =>
      simp only [Bool.not_true, Bool.false_eq_true, if_false] at h
      obtain ⟨s3, e4, h⟩ := bind_eq_ok.1 h
      obtain ⟨fd, -, h⟩ := bind_eq_ok.1 h
      obtain ⟨s4, e5, h⟩ := bind_eq_ok.1 h
      obtain ⟨s5, e6, h⟩ := bind_eq_ok.1 h
      have h := (Prod.mk.inj (Except.ok.inj h)).2
      have a1 := undoSwaps_num _ _ _ e4
      have a2 := undoRehash_ext _ _ _ _ _ e5
      simp only [List.length_set] at a1
      obtain ⟨a1, a3⟩ := a1
      obtain ⟨a2, a4⟩ := a2
      have a5 : s5.numLeaves = s4.numLeaves := by
        unfold restoreRoots at e6
        obtain ⟨_, -, e6⟩ := bind_eq_ok.1 e6
        obtain ⟨_, -, e6⟩ := bind_eq_ok.1 e6
        injection e6 with e6
        rw [← e6]
      refine ⟨m1, m2, _, row0', e1, e3, ?_, ?_⟩
      · rw [← h, a5, a2, a1]
      · rw [a3] at a4
        omega

/-- The parts of an `Undo` that answers false. -/
theorem undo_false {s s' : RamForest H} {u : UndoBatch H} (hne : s.ext.length ≠ 0) (h : undo s u = .ok (false, s')) :
    (∃ m1, undoErase s (sub64 s.numLeaves u.numAdds) (s.numLeaves - sub64 s.numLeaves u.numAdds) s.posmap = .ok (m1, false)) ∨
    ∃ m1 row0 row0', undoErase s (sub64 s.numLeaves u.numAdds) (s.numLeaves - sub64 s.numLeaves u.numAdds) s.posmap =
        .ok (m1, true) ∧
      undoPlace (sub64 s.numLeaves u.numAdds) u.hashes 0
        (vecResize row0 (sub64 (wrap64 (s.numLeaves + u.positions.length)) u.numAdds) HashOps.zero) m1 =
          .ok (row0', s'.posmap, false) ∧ s'.numLeaves = sub64 s.numLeaves u.numAdds := by
  unfold undo at h
  rw [if_neg hne] at h
  dsimp only at h
  obtain ⟨swaps, -, h⟩ := bind_eq_ok.1 h
  obtain ⟨⟨m1, ok1⟩, e1, h⟩ := bind_eq_ok.1 h
  cases ok1 with
  | false => exact .inl ⟨m1, e1⟩
  | true =>
    simp only [Bool.not_true, Bool.false_eq_true, if_false] at h
    obtain ⟨row0, e2, h⟩ := bind_eq_ok.1 h
    obtain ⟨⟨row0', m2, ok2⟩, e3, h⟩ := bind_eq_ok.1 h
    cases ok2 with
    | false =>
      simp only [Bool.not_false, if_true] at h
      have h := (Prod.mk.inj (Except.ok.inj h)).2
      refine .inr ⟨m1, row0, row0', e1, ?_, ?_⟩
      · rw [← h]; exact e3
      · rw [← h]
    | true =>
      simp only [Bool.not_true, Bool.false_eq_true, if_false] at h
      obtain ⟨s3, e4, h⟩ := bind_eq_ok.1 h
      obtain ⟨fd, -, h⟩ := bind_eq_ok.1 h
      obtain ⟨s4, e5, h⟩ := bind_eq_ok.1 h
      obtain ⟨s5, e6, h⟩ := bind_eq_ok.1 h
      cases h

/-- `Undo` of a batch without additions whose first hash cannot be placed. -/
theorem undo_refused {s : RamForest H} {n : ℕ} {g : ℕ → H} {u : UndoBatch H} (hi : Inv s n g)
    (hn : n + u.positions.length ≤ 2 ^ 62) (ha : u.numAdds = 0) {x : H} {hs : List H} (hu : u.hashes = x :: hs)
    (hx : u.positions = [] ∨ ∃ p, p < n ∧ g p = x) :
    ∃ s', undo s u = .ok (false, s') ∧ Inv s' n g := by
  have hne : s.ext.length ≠ 0 := by have := hi.cells.rows; omega
  obtain ⟨row0, hrow0⟩ : ∃ row0, s.ext[0]? = some row0 := ⟨_, List.getElem?_eq_getElem (by omega)⟩
  obtain ⟨sw, hsw⟩ := St.undoTransform_total hn u.positions
  have h0 : sub64 s.numLeaves u.numAdds = n := by rw [ha, hi.num, sub64_ok (by omega) (by omega), Nat.sub_zero]
  have h1 : sub64 (wrap64 (s.numLeaves + u.positions.length)) u.numAdds = n + u.positions.length := by
    rw [ha, hi.num, wrap64_ok (by omega), sub64_ok (by omega) (by omega), Nat.sub_zero]
  have hplace : ∃ row0', undoPlace n u.hashes 0 (vecResize row0 (n + u.positions.length) HashOps.zero) s.posmap =
      .ok (row0', s.posmap, false) ∧ ∀ i y, i < n → row0[i]? = some y → row0'[i]? = some y := by
    rw [hu, undoPlace, Nat.add_zero, wrap64_ok (by omega), vecResize_len]
    by_cases hp : n ≥ n + u.positions.length
    · rw [if_pos hp]
      exact ⟨_, rfl, fun i y hi hy => vecResize_get hy (by omega)⟩
    · rw [if_neg hp]
      rcases hx with hx | ⟨p, p1, p2⟩
      · rw [hx] at hp; simp at hp
      · dsimp only
        rw [(hi.pos.find x p).2 ⟨p1, p2⟩]
        refine ⟨_, rfl, fun i y hi hy => ?_⟩
        rw [List.getElem?_set_ne (by omega)]
        exact vecResize_get hy (by omega)
  obtain ⟨row0', e1, e2⟩ := hplace
  refine ⟨{ s with numLeaves := n, posmap := s.posmap, ext := s.ext.set 0 row0' }, ?_, ?_⟩
  · unfold undo
    rw [if_neg hne]
    dsimp only
    rw [h1, h0, hsw, ok_bind, hi.num, Nat.sub_self, undoErase, ok_bind]
    simp only [Bool.not_true, Bool.false_eq_true, if_false]
    rw [vecGet_ok hrow0, ok_bind, e1, ok_bind]
    rfl
  · refine ⟨rfl, ⟨by simpa using hi.cells.rows, ?_⟩, hi.pos, hi.roots⟩
    intro r i hri
    dsimp only
    rw [cell_set (by omega)]
    have hc := hi.cells.get r i hri
    split
    · rename_i hr
      subst hr
      unfold cell at hc
      rw [hrow0] at hc
      exact e2 i _ (by simpa using hri) hc
    · exact hc

end Ram
end Utreexo
