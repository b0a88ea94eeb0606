import Verif.Props.File
import Verif.Props.Pollard

/-!
# Accumulators made by a constructor: C58

`RamForest(n)` and `Pollard(n)` set the number of leaves but hold no leaf and no root.
-/

set_option linter.unusedSectionVars false

namespace Utreexo
open Spec Equiv

variable {H : Type} [DecidableEq H] [HashOps H]

/-! ## Deleting -/

section Stuck

variable {N X : Type}

theorem updatePosSubtree_nil {vt : VT H N X} {s s' : Acc H N X} {a b : ℕ} (hp : s.posmap = [])
    (h : Acc.updatePosSubtree vt s a b = .ok s') : s' = s := by
  unfold Acc.updatePosSubtree at h
  obtain ⟨row, -, h⟩ := bind_eq_ok.1 h
  obtain ⟨x, -, h⟩ := bind_eq_ok.1 h
  obtain ⟨y, -, h⟩ := bind_eq_ok.1 h
  obtain ⟨r, -, h⟩ := bind_eq_ok.1 h
  unfold Acc.updatePosRange at h
  rw [hp] at h
  simpa using h.symm

theorem removeRows_stuck {vt : VT H N X} {s : Acc H N X} (hp : s.posmap = [])
    (hs : ∀ a b x, vt.swapSubTrees s a b ≠ .ok x) (cs : ℕ) : ∀ (k : ℕ) (sws : List (List St.Swap)) (s' : Acc H N X) (d : List N),
    Acc.removeRows vt cs k sws s [] = .ok (s', d) → s' = s := by
  intro k
  induction k with
  | zero => intro sws s' d h; simp only [Acc.removeRows, Except.ok.injEq, Prod.mk.injEq] at h; exact h.1.symm
  | succ k ih =>
    intro sws s' d h
    rw [Acc.removeRows] at h
    obtain ⟨⟨s1, d1⟩, e1, h⟩ := bind_eq_ok.1 h
    have : s1 = s ∧ d1 = [] := by
      cases hc : sws.headD [] with
      | nil => rw [hc] at e1; simp only [Acc.runSwaps, List.map_nil, Except.ok.injEq, Prod.mk.injEq] at e1; exact ⟨e1.1.symm, e1.2.symm⟩
      | cons sw rest =>
        rw [hc, Acc.runSwaps] at e1
        obtain ⟨s2, e2, e4⟩ := bind_eq_ok.1 e1
        rw [updatePosSubtree_nil hp e2] at e4
        obtain ⟨x, e3, -⟩ := bind_eq_ok.1 e4
        exact absurd e3 (hs _ _ _)
    obtain ⟨rfl, rfl⟩ := this
    obtain ⟨⟨s2, d2⟩, e2, h⟩ := bind_eq_ok.1 h
    simp only [Acc.rehashDirty, Except.ok.injEq, Prod.mk.injEq] at e2
    obtain ⟨rfl, rfl⟩ := e2
    exact ih _ _ _ h

/-- An accumulator that cannot swap and cannot finish a deletion changes nothing. -/
theorem remove_stuck {vt : VT H N X} {s : Acc H N X} (hp : s.posmap = []) (h64 : s.numLeaves < two64)
    (hs : ∀ a b x, vt.swapSubTrees s a b ≠ .ok x) (hf : ∀ k x, k < s.numLeaves → vt.finalizeRemove s k ≠ .ok x)
    {D : List ℕ} (hD : D ≠ []) {b : Bool} {s' : Acc H N X} (h : Acc.remove vt s D = .ok (b, s')) : b = false ∧ s' = s := by
  unfold Acc.remove at h
  have h0 : D.length ≠ 0 := by simpa using hD
  rw [if_neg h0] at h
  obtain ⟨c, e1, h⟩ := bind_eq_ok.1 h
  cases c with
  | false => simp only [Bool.not_false, if_true, pure_ok, Except.ok.injEq, Prod.mk.injEq] at h; exact ⟨h.1.symm, h.2.symm⟩
  | true =>
    exfalso
    simp only [Bool.not_true, Bool.false_eq_true, if_false] at h
    obtain ⟨sw, -, h⟩ := bind_eq_ok.1 h
    obtain ⟨⟨s1, d⟩, e2, h2⟩ := bind_eq_ok.1 h
    have e4 := removeRows_stuck hp hs _ _ _ _ _ e2
    rw [e4] at h2
    obtain ⟨_, -, h3⟩ := bind_eq_ok.1 h2
    obtain ⟨s2, e3, -⟩ := bind_eq_ok.1 h3
    have hle : D.length ≤ s.numLeaves := by
      unfold St.checkTargetsSanity at e1
      rw [if_neg h0] at e1
      by_contra hc
      rw [if_pos (by omega)] at e1
      simp at e1
    refine hf _ _ ?_ e3
    unfold sub64
    have : s.numLeaves + (two64 - D.length) = (s.numLeaves - D.length) + two64 := by omega
    rw [this, Nat.add_mod_right, Nat.mod_eq_of_lt (by omega)]
    omega

end Stuck

namespace Ram

theorem mk_read (n cs p : ℕ) (h : H) : readIn (mk n : RamForest H) cs p ≠ .ok h := by
  intro e
  unfold readIn at e
  obtain ⟨row, -, e⟩ := bind_eq_ok.1 e
  obtain ⟨off, -, e⟩ := bind_eq_ok.1 e
  obtain ⟨_, -, e⟩ := bind_eq_ok.1 e
  obtain ⟨rd, e2, e⟩ := bind_eq_ok.1 e
  obtain ⟨_, e3, -⟩ := bind_eq_ok.1 e
  have : rd = [] := by
    unfold vecAt mk at e2
    cases row with
    | zero => simpa using e2.symm
    | succ k => simp at e2
  subst this
  simp [cassert] at e3

theorem mk_swap (n a b : ℕ) (x : Option (RNode H) × RamForest H) : swapSubTrees (mk n : RamForest H) a b ≠ .ok x := by
  intro e
  unfold swapSubTrees at e
  obtain ⟨row, -, e⟩ := bind_eq_ok.1 e
  obtain ⟨_, -, e⟩ := bind_eq_ok.1 e
  obtain ⟨_, -, e⟩ := bind_eq_ok.1 e
  obtain ⟨a', -, e⟩ := bind_eq_ok.1 e
  obtain ⟨b', -, e⟩ := bind_eq_ok.1 e
  obtain ⟨range, e1, e⟩ := bind_eq_ok.1 e
  obtain ⟨y, e2, -⟩ := bind_eq_ok.1 e
  have hr : ∃ r, range = r + 1 := by
    unfold shlInt at e1
    split at e1
    · refine ⟨range - 1, ?_⟩
      have : 0 < 1 <<< row := by rw [Nat.one_shiftLeft]; exact Nat.two_pow_pos _
      rw [← Except.ok.inj e1]; omega
    · simp at e1
  obtain ⟨r, rfl⟩ := hr
  rw [swapTreeLoop, if_neg (by omega)] at e2
  obtain ⟨s', e3, -⟩ := bind_eq_ok.1 e2
  unfold swapRange at e3
  obtain ⟨row2, -, e3⟩ := bind_eq_ok.1 e3
  obtain ⟨o1, -, e3⟩ := bind_eq_ok.1 e3
  obtain ⟨o2, -, e3⟩ := bind_eq_ok.1 e3
  obtain ⟨rd, e4, e3⟩ := bind_eq_ok.1 e3
  obtain ⟨rd', e5, -⟩ := bind_eq_ok.1 e3
  have : rd = [] := by
    unfold vecAt mk at e4
    cases row2 with
    | zero => simpa using e4.symm
    | succ k => simp at e4
  subst this
  rw [swapLoop] at e5
  obtain ⟨x, e6, -⟩ := bind_eq_ok.1 e5
  simp [vecGet] at e6

theorem mk_finalize (n k : ℕ) (x : RamForest H) (hk : k < n) : finalizeRemove (mk n : RamForest H) k ≠ .ok x := by
  intro e
  unfold finalizeRemove at e
  obtain ⟨_, -, e⟩ := bind_eq_ok.1 e
  obtain ⟨m, e1, -⟩ := bind_eq_ok.1 e
  obtain ⟨j, hj⟩ : ∃ j, (mk n : RamForest H).numLeaves - k = j + 1 := ⟨n - k - 1, by show n - k = _; omega⟩
  rw [hj, eraseLoop] at e1
  obtain ⟨h, e2, -⟩ := bind_eq_ok.1 e1
  exact mk_read _ _ _ _ e2

theorem insert_length (m : PosMap H) (h : H) (v : ℕ) : (PosMap.insert m h v).length ≤ m.length + 1 := by
  unfold PosMap.insert PosMap.erase
  rw [List.length_cons]
  have := List.length_filter_le (fun e : H × ℕ => decide (e.1 ≠ h)) m
  omega

theorem mergeLoop_posmap (cs : ℕ) : ∀ (fuel row : ℕ) (root : Int) (nr : RNode H) (s s' : RamForest H),
    Acc.mergeLoop vt cs fuel row root nr s = .ok s' → s'.posmap = s.posmap := by
  intro fuel
  induction fuel with
  | zero => intro row root nr s s' h; simp [Acc.mergeLoop] at h
  | succ fuel ih =>
    intro row root nr s s' h
    rw [Acc.mergeLoop] at h
    obtain ⟨b, -, h⟩ := bind_eq_ok.1 h
    cases b with
    | false => simp only [Bool.false_eq_true, if_false, pure_ok, Except.ok.injEq] at h; rw [h]
    | true =>
      simp only [if_true] at h
      obtain ⟨l, -, h⟩ := bind_eq_ok.1 h
      obtain ⟨lh, -, h⟩ := bind_eq_ok.1 h
      obtain ⟨rh, -, h⟩ := bind_eq_ok.1 h
      obtain ⟨pp, -, h⟩ := bind_eq_ok.1 h
      obtain ⟨⟨nr', s1⟩, e1, h⟩ := bind_eq_ok.1 h
      rw [ih _ _ _ _ _ h]
      change mergeRoot s pp (HashOps.ph lh rh) = .ok (nr', s1) at e1
      unfold mergeRoot at e1
      obtain ⟨_, -, e1⟩ := bind_eq_ok.1 e1
      obtain ⟨_, -, e1⟩ := bind_eq_ok.1 e1
      obtain ⟨_, -, e1⟩ := bind_eq_ok.1 e1
      obtain ⟨_, -, e1⟩ := bind_eq_ok.1 e1
      obtain ⟨_, -, e1⟩ := bind_eq_ok.1 e1
      obtain ⟨_, -, e1⟩ := bind_eq_ok.1 e1
      obtain ⟨_, -, e1⟩ := bind_eq_ok.1 e1
      simp only [pure_ok, Except.ok.injEq, Prod.mk.injEq] at e1
      rw [← e1.2]

theorem addOne_posmap (s s' : RamForest H) (leaf : Leaf H) (h : Acc.addOne vt s leaf = .ok s') :
    s'.posmap.length ≤ s.posmap.length + 1 := by
  unfold Acc.addOne at h
  obtain ⟨⟨nr, s1⟩, e1, h⟩ := bind_eq_ok.1 h
  obtain ⟨s2, e2, h⟩ := bind_eq_ok.1 h
  have h1 : s1.posmap.length ≤ s.posmap.length + 1 := by
    change newLeaf s leaf = .ok (nr, s1) at e1
    unfold newLeaf at e1
    obtain ⟨_, -, e1⟩ := bind_eq_ok.1 e1
    obtain ⟨_, -, e1⟩ := bind_eq_ok.1 e1
    simp only [pure_ok, Except.ok.injEq, Prod.mk.injEq] at e1
    rw [← e1.2]
    exact insert_length _ _ _
  have h2 := mergeLoop_posmap _ _ _ _ _ _ _ e2
  have h3 : s'.posmap = s2.posmap := by
    simp only at h
    split at h
    · simp only [pure_ok, Except.ok.injEq] at h; rw [← h]
    · split at h
      · obtain ⟨_, -, h⟩ := bind_eq_ok.1 h
        obtain ⟨_, -, h⟩ := bind_eq_ok.1 h
        simp only [pure_ok, Except.ok.injEq] at h; rw [← h]
      · simp at h
  rw [h3, h2]; exact h1

theorem accAdd_posmap : ∀ (leaves : List (Leaf H)) (s s' : RamForest H), Acc.add vt s leaves = .ok s' →
    s'.posmap.length ≤ s.posmap.length + leaves.length := by
  intro leaves
  induction leaves with
  | nil => intro s s' h; simp only [Acc.add, List.foldlM_nil, pure_ok, Except.ok.injEq] at h; rw [h]; simp
  | cons l ls ih =>
    intro s s' h
    rw [Acc.add, List.foldlM_cons] at h
    obtain ⟨s1, e1, h⟩ := bind_eq_ok.1 h
    have h1 := addOne_posmap _ _ _ e1
    have h2 := ih s1 s' h
    rw [List.length_cons]; omega

end Ram

open Ram in
/-- C58: on a forest constructed with a nonzero number of leaves no call of `Modify` ever succeeds. A call that returns has returned
false and changed nothing. -/
theorem C58_forest (n : ℕ) (h0 : 0 < n) (leaves : List (Leaf H)) (D : List ℕ) (hn : n + leaves.length < 2 ^ 64)
    (b : Bool) (u : Option (UndoBatch H)) (s : RamForest H) (h : Ram.modify (Ram.mk n) leaves D = .ok (b, u, s)) :
    b = false ∧ u = none ∧ s = Ram.mk n := by
  unfold Ram.modify at h
  obtain ⟨⟨ok, s1⟩, e1, h⟩ := bind_eq_ok.1 h
  by_cases hD : D = []
  · exfalso
    subst hD
    simp only [Acc.remove, List.length_nil, if_true, Except.ok.injEq, Prod.mk.injEq] at e1
    obtain ⟨rfl, rfl⟩ := e1
    simp only [Bool.not_true, Bool.false_eq_true, if_false] at h
    obtain ⟨o, e2, h⟩ := bind_eq_ok.1 h
    cases o with
    | none =>
      unfold buildUndoBatch at e2
      simp [undoHashes] at e2
    | some u' =>
      simp only at h
      obtain ⟨s2, e3, -⟩ := bind_eq_ok.1 h
      unfold add at e3
      obtain ⟨data, -, e3⟩ := bind_eq_ok.1 e3
      obtain ⟨_, -, e3⟩ := bind_eq_ok.1 e3
      obtain ⟨s3, e4, e3⟩ := bind_eq_ok.1 e3
      obtain ⟨_, e5, e3⟩ := bind_eq_ok.1 e3
      obtain ⟨_, e6, -⟩ := bind_eq_ok.1 e3
      have h1 := accAdd_posmap _ _ _ e4
      have e5 : wrap64 (n + leaves.length) = s3.numLeaves := by
        unfold cassert at e5
        split at e5
        · rename_i hc; exact of_decide_eq_true hc
        · simp at e5
      have e6 : s3.posmap.length = s3.numLeaves := by
        unfold cassert at e6
        split at e6
        · rename_i hc; simpa using hc
        · simp at e6
      have h2 : (mk n : RamForest H).posmap.length = 0 := rfl
      unfold wrap64 at e5
      rw [Nat.mod_eq_of_lt (by unfold two64; omega)] at e5
      have h3 : ({ (mk n : RamForest H) with ext := data } : RamForest H).posmap.length = 0 := rfl
      rw [h3] at h1
      omega
  · obtain ⟨rfl, rfl⟩ := remove_stuck (vt := vt) (s := (mk n : RamForest H)) rfl (by show n < two64; unfold two64; omega)
      (fun a b x => mk_swap n a b x) (fun k x hk => mk_finalize n k x hk) hD e1
    simp only [Bool.not_false, if_true, pure_ok, Except.ok.injEq, Prod.mk.injEq] at h
    exact ⟨h.1.symm, h.2.1.symm, h.2.2.symm⟩

/-- C58: destroying it fails an assertion: the stream of a forest without a file is good, so the destructor commits. -/
theorem C58_destroy [HashOps Hash32] (big : Bool) (n : ℕ) (h0 : 0 < n) (file : List Byte) :
    File.commit big (Ram.mk n) file = .error .abort := by
  unfold File.commit File.commitWrites
  rw [File.commitRows]
  show ((_ : Res (List (List Byte))) >>= _) = _
  have : File.commitRow ([] : List Hash32) n = .error .abort := by
    unfold File.commitRow cassert
    rw [if_neg (by simp; omega)]; rfl
  simp only [Ram.mk, vecGet, List.getElem?_cons_zero, ok_bind, this, error_bind]

/-! ## The pollard -/

namespace Pol

theorem mk_siblings (n p : ℕ) (x : Option ℕ × Option ℕ × List PEntry) : readSiblings (mk n : Pollard H) p ≠ .ok x := by
  intro e
  unfold readSiblings at e
  obtain ⟨⟨tree, len, bits⟩, -, e⟩ := bind_eq_ok.1 e
  obtain ⟨ps, -, e⟩ := bind_eq_ok.1 e
  obtain ⟨np, -, e⟩ := bind_eq_ok.1 e
  obtain ⟨r, e1, -⟩ := bind_eq_ok.1 e
  simp [vecGet, mk] at e1

theorem mk_swap (n a b : ℕ) (x : Option PNode × Pollard H) : swapSubTrees (mk n : Pollard H) a b ≠ .ok x := by
  intro e
  unfold swapSubTrees at e
  obtain ⟨y, e1, -⟩ := bind_eq_ok.1 e
  exact mk_siblings _ _ _ e1

theorem mk_finalize (n k : ℕ) (x : Pollard H) (hk : k < n) : finalizeRemove (mk n : Pollard H) k ≠ .ok x := by
  intro e
  unfold finalizeRemove at e
  obtain ⟨m, e1, -⟩ := bind_eq_ok.1 e
  obtain ⟨j, hj⟩ : ∃ j, (mk n : Pollard H).numLeaves - k = j + 1 := ⟨n - k - 1, by show n - k = _; omega⟩
  rw [hj, eraseLoop] at e1
  obtain ⟨h, e2, -⟩ := bind_eq_ok.1 e1
  unfold read at e2
  obtain ⟨y, e3, -⟩ := bind_eq_ok.1 e2
  exact mk_siblings _ _ _ e3

/-- The number of ones at the end of a binary number, within the last `k` digits. -/
def lastOnes : ℕ → ℕ → ℕ
  | 0, _ => 0
  | k + 1, x => if x % 2 = 1 then 1 + lastOnes k (x / 2) else 0

theorem popcount_succ : ∀ (k x : ℕ), x + 1 < 2 ^ k → St.popcountLoop k (x + 1) + lastOnes k x = St.popcountLoop k x + 1 := by
  intro k
  induction k with
  | zero => intro x h; simp at h
  | succ k ih =>
    intro x h
    rw [pow_succ] at h
    rw [St.popcountLoop, St.popcountLoop, lastOnes]
    rcases Nat.mod_two_eq_zero_or_one x with hx | hx
    · rw [if_neg (by omega)]
      have h1 : (x + 1) / 2 = x / 2 := by omega
      rw [h1]; omega
    · rw [if_pos hx]
      have h1 : (x + 1) / 2 = x / 2 + 1 := by omega
      have := ih (x / 2) (by omega)
      rw [h1]; omega

theorem popcount_more : ∀ (k x : ℕ), x < 2 ^ k → St.popcountLoop (k + 1) x = St.popcountLoop k x := by
  intro k
  induction k with
  | zero => intro x h; have : x = 0 := by simpa using h
            subst this; rfl
  | succ k ih =>
    intro x h
    rw [pow_succ] at h
    rw [St.popcountLoop, ih _ (by omega)]; rfl

theorem popcount_zero : ∀ k, St.popcountLoop k 0 = 0 := by
  intro k
  induction k with
  | zero => rfl
  | succ k ih => rw [St.popcountLoop]; simpa using ih

theorem popcount_pos : ∀ (k x : ℕ), 0 < x → x < 2 ^ k → 0 < St.popcountLoop k x := by
  intro k
  induction k with
  | zero => intro x h0 h; simp at h; omega
  | succ k ih =>
    intro x h0 h
    rw [pow_succ] at h
    rw [St.popcountLoop]
    rcases Nat.eq_zero_or_pos (x / 2) with hx | hx
    · omega
    · have := ih (x / 2) hx (by omega); omega

theorem mergeRoot_length {s s' : Pollard H} {pp : ℕ} {h : H} {nr : PNode} (e : mergeRoot s pp h = .ok (nr, s')) :
    s'.roots.length + 1 = s.roots.length ∧ s'.numLeaves = s.numLeaves := by
  unfold mergeRoot at e
  split at e
  · rename_i r l rest hr
    obtain ⟨_, -, e⟩ := bind_eq_ok.1 e
    obtain ⟨_, -, e⟩ := bind_eq_ok.1 e
    obtain ⟨_, -, e⟩ := bind_eq_ok.1 e
    obtain ⟨_, -, e⟩ := bind_eq_ok.1 e
    obtain ⟨_, -, e⟩ := bind_eq_ok.1 e
    obtain ⟨_, -, e⟩ := bind_eq_ok.1 e
    obtain ⟨_, -, e⟩ := bind_eq_ok.1 e
    have := congrArg List.length hr
    rw [List.length_reverse] at this
    simp only at e
    split at e
    · obtain ⟨_, -, e⟩ := bind_eq_ok.1 e
      simp only [pure_ok, Except.ok.injEq, Prod.mk.injEq] at e
      rw [← e.2, this]
      exact ⟨by simp, rfl⟩
    · simp only [pure_ok, ok_bind, Except.ok.injEq, Prod.mk.injEq] at e
      rw [← e.2, this]
      exact ⟨by simp, rfl⟩
  · simp at e

theorem mergeLoop_length (cs : ℕ) : ∀ (fuel row : ℕ) (root : Int) (nr : PNode) (s s' : Pollard H),
    Acc.mergeLoop vt cs fuel row root nr s = .ok s' →
    s'.roots.length + lastOnes fuel (cs >>> row) = s.roots.length ∧ s'.numLeaves = s.numLeaves := by
  intro fuel
  induction fuel with
  | zero => intro row root nr s s' h; simp [Acc.mergeLoop] at h
  | succ fuel ih =>
    intro row root nr s s' h
    rw [Acc.mergeLoop] at h
    obtain ⟨b, hb, h⟩ := bind_eq_ok.1 h
    unfold St.hasRoot at hb
    obtain ⟨x, e1, hb⟩ := bind_eq_ok.1 hb
    have hx : x = cs >>> row := by
      unfold shr64 at e1
      split at e1
      · simpa using (Except.ok.inj e1).symm
      · simp at e1
    subst hx
    have hbit : b = true ↔ cs >>> row % 2 = 1 := by
      rw [← Except.ok.inj hb, Nat.and_one_is_mod, decide_eq_true_iff]
      omega
    rw [lastOnes]
    cases b with
    | false =>
      simp only [Bool.false_eq_true, if_false, pure_ok, Except.ok.injEq] at h
      rw [if_neg (fun hc => absurd (hbit.2 hc) (by simp)), h]
      exact ⟨rfl, rfl⟩
    | true =>
      simp only [if_true] at h
      obtain ⟨l, -, h⟩ := bind_eq_ok.1 h
      obtain ⟨lh, -, h⟩ := bind_eq_ok.1 h
      obtain ⟨rh, -, h⟩ := bind_eq_ok.1 h
      obtain ⟨pp, -, h⟩ := bind_eq_ok.1 h
      obtain ⟨⟨nr', s1⟩, e2, h⟩ := bind_eq_ok.1 h
      obtain ⟨h1, h2⟩ := mergeRoot_length e2
      obtain ⟨h3, h4⟩ := ih _ _ _ _ _ h
      rw [if_pos (hbit.1 rfl)]
      have : cs >>> row / 2 = cs >>> (row + 1) := by rw [Nat.shiftRight_succ]
      rw [this]
      exact ⟨by rw [← h1, ← h3]; omega, by rw [h4, h2]⟩

theorem addOne_length {s s' : Pollard H} {leaf : Leaf H} (hn : s.numLeaves + 1 < 2 ^ 64) (h : Acc.addOne vt s leaf = .ok s') :
    s'.numLeaves = s.numLeaves + 1 ∧
    s'.roots.length + St.popcountLoop 66 s.numLeaves = s.roots.length + St.popcountLoop 66 (s.numLeaves + 1) := by
  unfold Acc.addOne at h
  obtain ⟨⟨nr, s1⟩, e1, h⟩ := bind_eq_ok.1 h
  obtain ⟨s2, e2, h⟩ := bind_eq_ok.1 h
  have h1 : s1.roots.length = s.roots.length + 1 ∧ s1.numLeaves = s.numLeaves := by
    change newLeaf s leaf = .ok (nr, s1) at e1
    unfold newLeaf at e1
    simp only [Except.ok.injEq, Prod.mk.injEq] at e1
    rw [← e1.2]
    exact ⟨by simp, rfl⟩
  obtain ⟨h2, h3⟩ := mergeLoop_length _ _ _ _ _ _ _ e2
  have h4 : s'.roots.length = s2.roots.length ∧ s'.numLeaves = wrap64 (s2.numLeaves + 1) := by
    simp only at h
    split at h
    · simp only [pure_ok, Except.ok.injEq] at h; rw [← h]; exact ⟨rfl, rfl⟩
    · split at h
      · rename_i r0 r1 rest hr
        obtain ⟨_, -, h⟩ := bind_eq_ok.1 h
        obtain ⟨_, -, h⟩ := bind_eq_ok.1 h
        simp only [pure_ok, Except.ok.injEq] at h
        rw [← h, hr]; exact ⟨rfl, rfl⟩
      · simp at h
  have h5 := popcount_succ 66 s.numLeaves (by omega)
  have h6 : s.numLeaves >>> 0 = s.numLeaves := rfl
  rw [h6] at h2
  refine ⟨?_, by omega⟩
  rw [h4.2, h3, h1.2]
  unfold wrap64
  exact Nat.mod_eq_of_lt (by unfold two64; omega)

theorem add_length : ∀ (leaves : List (Leaf H)) (s s' : Pollard H), s.numLeaves + leaves.length < 2 ^ 64 →
    Acc.add vt s leaves = .ok s' → s'.numLeaves = s.numLeaves + leaves.length ∧
    s'.roots.length + St.popcountLoop 66 s.numLeaves = s.roots.length + St.popcountLoop 66 (s.numLeaves + leaves.length) := by
  intro leaves
  induction leaves with
  | nil => intro s s' _ h; simp only [Acc.add, List.foldlM_nil, pure_ok, Except.ok.injEq] at h; rw [h]; simp
  | cons l ls ih =>
    intro s s' hn h
    rw [List.length_cons] at hn ⊢
    rw [Acc.add, List.foldlM_cons] at h
    obtain ⟨s1, e1, h⟩ := bind_eq_ok.1 h
    obtain ⟨h1, h2⟩ := addOne_length (by omega) e1
    obtain ⟨h3, h4⟩ := ih s1 s' (by omega) h
    rw [h1] at h3 h4
    have : s.numLeaves + (ls.length + 1) = s.numLeaves + 1 + ls.length := by omega
    rw [this]
    exact ⟨h3, by omega⟩

theorem mapM_length {α β : Type} (f : α → Res β) : ∀ (l : List α) (r : List β), l.mapM f = .ok r → r.length = l.length := by
  intro l
  induction l with
  | nil => intro r h; simp only [List.mapM_nil, pure_ok, Except.ok.injEq] at h; rw [← h]; rfl
  | cons a l ih =>
    intro r h
    rw [List.mapM_cons] at h
    obtain ⟨b, -, h⟩ := bind_eq_ok.1 h
    obtain ⟨bs, e, h⟩ := bind_eq_ok.1 h
    simp only [pure_ok, Except.ok.injEq] at h
    rw [← h, List.length_cons, List.length_cons, ih _ e]

end Pol

open Pol in
/-- C58: on a pollard constructed with a nonzero number of leaves no deletion succeeds, and an addition that succeeds leaves it with
too few roots: the roots of the declared leaves are missing. -/
theorem C58_pollard (n : ℕ) (h0 : 0 < n) (leaves : List (Leaf H)) (D : List ℕ) (hn : n + leaves.length < 2 ^ 64)
    (b : Bool) (p : Pollard H) (h : Pol.modify (Pol.mk n) leaves D = .ok (b, p)) :
    (b = false ∧ p = Pol.mk n) ∨
    (b = true ∧ D = [] ∧ p.numLeaves = n + leaves.length ∧
      ∀ rs, Pol.roots p = .ok rs → rs.length + St.numRoots n = St.numRoots p.numLeaves ∧ rs.length < St.numRoots p.numLeaves) := by
  unfold Pol.modify Acc.modify at h
  obtain ⟨⟨ok, s1⟩, e1, h⟩ := bind_eq_ok.1 h
  by_cases hD : D = []
  · subst hD
    simp only [Acc.remove, List.length_nil, if_true, Except.ok.injEq, Prod.mk.injEq] at e1
    obtain ⟨rfl, rfl⟩ := e1
    simp only [Bool.not_true, Bool.false_eq_true, if_false] at h
    obtain ⟨s2, e2, h⟩ := bind_eq_ok.1 h
    simp only [pure_ok, Except.ok.injEq, Prod.mk.injEq] at h
    obtain ⟨rfl, rfl⟩ := h
    obtain ⟨h1, h2⟩ := add_length leaves (mk n) s2 hn e2
    refine .inr ⟨rfl, rfl, h1, fun rs hr => ?_⟩
    have h3 := mapM_length _ _ _ hr
    have h4 : ∀ x, x < 2 ^ 64 → St.popcountLoop 66 x = St.numRoots x := by
      intro x hx
      rw [popcount_more 65 x (by omega), popcount_more 64 x hx]; rfl
    have h5 : (mk n : Pollard H).roots.length = 0 := rfl
    have h6 : (mk n : Pollard H).numLeaves = n := rfl
    rw [h6] at h1 h2
    rw [h4 _ (by omega), h4 _ hn, h5] at h2
    have h7 : 0 < St.numRoots n := popcount_pos 64 n h0 (by omega)
    rw [h1]
    constructor <;> omega
  · obtain ⟨rfl, rfl⟩ := remove_stuck (vt := vt) (s := (mk n : Pollard H)) rfl (by show n < two64; unfold two64; omega)
      (fun a b x => mk_swap n a b x) (fun k x hk => mk_finalize n k x hk) hD e1
    simp only [Bool.not_false, if_true, pure_ok, Except.ok.injEq, Prod.mk.injEq] at h
    exact .inl ⟨h.1.symm, h.2.symm⟩

namespace Pol

theorem mkRoots_hashes : ∀ (hs : List H) (ps : List ℕ) (heap heap' : List (INode H)) (rs : List PNode),
    mkRoots hs ps heap = .ok (rs, heap') → heap <+: heap' ∧ ∀ s : Pollard H, s.ext = heap' → rs.mapM (nodeHash s) = .ok hs := by
  intro hs
  induction hs with
  | nil =>
    intro ps heap heap' rs h
    simp only [mkRoots, Except.ok.injEq, Prod.mk.injEq] at h
    obtain ⟨rfl, rfl⟩ := h
    exact ⟨List.prefix_rfl, fun s _ => by simp⟩
  | cons x hs ih =>
    intro ps heap heap' rs h
    cases ps with
    | nil => simp [mkRoots] at h
    | cons q ps =>
      rw [mkRoots] at h
      obtain ⟨⟨rest, heap2⟩, e1, h⟩ := bind_eq_ok.1 h
      simp only [pure_ok, Except.ok.injEq, Prod.mk.injEq] at h
      obtain ⟨rfl, rfl⟩ := h
      obtain ⟨⟨t, ht⟩, h2⟩ := ih _ _ _ _ e1
      refine ⟨⟨{ hash := x, n0 := none, n1 := none } :: t, by rw [← ht]; simp⟩, fun s hs' => ?_⟩
      rw [List.mapM_cons]
      have : nodeHash s { e := { node := some heap.length, sib := some heap.length, pos := q }, up := [] } = .ok x := by
        unfold nodeHash deref vecGet
        rw [hs', ← ht]
        simp
      rw [this, ok_bind, h2 s hs']
      rfl

end Pol

/-- C58: the constructor from roots takes exactly the lists of roots with the right length, and the pollard then has these roots,
whatever they are. Any other list fails an assertion. -/
theorem C58_fromRoots (n : ℕ) (hn : n ≤ 2 ^ 62) (rs : List H) :
    (rs.length = St.numRoots n → ∃ p, Pol.fromRoots rs n = .ok p ∧ p.numLeaves = n ∧ Pol.roots p = .ok rs) ∧
    (rs.length ≠ St.numRoots n → Pol.fromRoots rs n = .error .abort) := by
  constructor
  · intro h
    obtain ⟨ts, -, -, h1, h2⟩ := C04_rootPositions n hn
    unfold Pol.fromRoots
    rw [cassert_true (by simpa using h), ok_bind, h2, ok_bind, cassert_true (by simp [h1, h]), ok_bind]
    obtain ⟨nodes, e1, -⟩ := Pol.mkRoots_ok rs (ts.map fun t => posOf (St.numRows n) t (treeStart n t / 2 ^ t)) (Pol.mk (H := H) n).ext
      (by simp [h1, h])
    rw [e1, ok_bind]
    exact ⟨_, rfl, rfl, (Pol.mkRoots_hashes _ _ _ _ _ e1).2 _ rfl⟩
  · intro h
    unfold Pol.fromRoots cassert
    rw [if_neg (by simpa using h)]
    rfl

/-! ## Concrete cases -/

section Examples

attribute [local instance] toyOps

/-- What a forest constructed with six leaves makes of calls of `Modify`: the additions fail an assertion, a deletion is undefined, and
insane targets are turned down. -/
example : [((Ram.modify (Ram.mk 6 : RamForest ℕ) [(11, false)] []).map fun r => r.1),
      ((Ram.modify (Ram.mk 6 : RamForest ℕ) [] [2]).map fun r => r.1),
      ((Ram.modify (Ram.mk 6 : RamForest ℕ) [] [6]).map fun r => r.1)] = [.error .abort, .error .ub, .ok false] := by decide +kernel

/-- A pollard constructed with twelve leaves takes three additions and reports two roots for its fifteen leaves, while a forest of
fifteen leaves has four. The fourth addition is undefined. -/
example : (do
      let (b, p) ← Pol.modify (Pol.mk 12 : Pollard ℕ) [(11, false), (12, false), (13, false)] []
      return (b, p.numLeaves, (← Pol.roots p).length, St.numRoots 15)) = (.ok (true, 15, 2, 4) : Res _) ∧
    (Pol.modify (Pol.mk 12 : Pollard ℕ) [(11, false), (12, false), (13, false), (14, false)] []).map (fun r => r.1) = .error .ub := by
  decide +kernel

/-- A pollard from three hashes that are no roots of anything, and the failed assertion with two of them. -/
example : ((Pol.fromRoots [5, 6, 7] 7 >>= Pol.roots) = (.ok [5, 6, 7] : Res (List ℕ))) ∧
    ((Pol.fromRoots [5, 6] 7 : Res (Pollard ℕ)).map fun p => p.numLeaves) = .error .abort := by decide +kernel

end Examples

end Utreexo
