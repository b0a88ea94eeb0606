import Verif.Model.Scan
import Verif.Proof.Work

/-! # Leaf positions looked up -/

set_option linter.unusedSectionVars false

namespace Utreexo
open Spec Equiv

variable {H : Type} [DecidableEq H] [HashOps H]

theorem Follows.mapLeft {α β γ : Type} {R : α → β → Prop} {S : γ → β → Prop} {x : Res α} {y : Res β} {f : α → Res γ} (h : Follows R x y)
    (hf : ∀ a b, R a b → ∃ c, f a = .ok c ∧ S c b) : Follows S (x >>= f) y := by
  cases h with
  | ok h =>
    obtain ⟨c, e, hc⟩ := hf _ _ h
    rw [ok_bind, e]
    exact .ok hc
  | error e => exact .error e

/-- Leaf positions below the two subtrees of a swap. -/
def swapScan (n : ℕ) (sw : St.Swap) : ℕ :=
  match St.detectRow n sw.src with
  | .ok r => 2 * 2 ^ r
  | .error _ => 0

/-- Leaf positions below the subtrees of the swaps of a row. -/
def rowScan (n : ℕ) (sws : List St.Swap) : ℕ := (sws.map (swapScan n)).sum

namespace Acc
variable {N X : Type} {vt : VT H N X} {sc : Scan H N X}

/-- The counting functions count every position, and the position map is changed by `UpdatePositionMapForRange` only. -/
structure ScanOK (vt : VT H N X) (sc : Scan H N X) : Prop where
  read : ∀ s p k, sc.readLeafRange s p k = (vt.readLeafRange s p k).map fun l => (l, k)
  final : ∀ s k, sc.finalizeRemove s k = (vt.finalizeRemove s k).map fun t => (t, s.numLeaves - k)
  swap : ∀ s a b, After (vt.swapSubTrees s a b) fun r => r.2.posmap = s.posmap
  rehash : ∀ s d, After (vt.nodeReHash s d) fun r => r.posmap = s.posmap

theorem shiftPos_empty (off : ℕ) (m : PosMap H) (h : H) : (shiftPos off m h).length = 0 ↔ m.length = 0 := by
  unfold shiftPos
  cases m with
  | nil => simp [PosMap.find]
  | cons a m =>
    split
    · simp only [List.length_cons]
      unfold PosMap.insert
      constructor <;> intro h1
      · exfalso; simp at h1
      · omega
    · rfl

theorem shiftAll_empty (off : ℕ) : ∀ (hs : List H) (m : PosMap H), (hs.foldl (shiftPos off) m).length = 0 ↔ m.length = 0 := by
  intro hs
  induction hs with
  | nil => intro m; rfl
  | cons h hs ih => intro m; rw [List.foldl_cons, ih, shiftPos_empty]

/-- What stays when the position map is updated. -/
def Kept (s t : Acc H N X) : Prop := t.numLeaves = s.numLeaves ∧ (t.posmap.length = 0 ↔ s.posmap.length = 0)

theorem Kept.trans {s t u : Acc H N X} (h : Kept s t) (h' : Kept t u) : Kept s u := ⟨h'.1.trans h.1, h'.2.trans h.2⟩

/-- Number of positions of a number of swaps. -/
def cost (s : Acc H N X) (k : ℕ) : ℕ := if s.posmap.length = 0 then 0 else k

theorem cost_kept {s t : Acc H N X} (h : Kept s t) (k : ℕ) : cost t k = cost s k := by
  unfold cost
  simp only [h.2]

theorem cost_add (s : Acc H N X) (a b : ℕ) : cost s a + cost s b = cost s (a + b) := by
  unfold cost
  split <;> rfl

theorem updatePosSubtree_scan (P : ScanOK vt sc) (s : Acc H N X) (sw : St.Swap) :
    Follows (fun x y => x = (y, cost s (swapScan s.numLeaves sw)) ∧ Kept s y)
      (updatePosSubtreeS sc s sw.src sw.dst) (updatePosSubtree vt s sw.src sw.dst) := by
  unfold updatePosSubtree updatePosSubtreeS
  refine Follows.seqAfter (Q := fun r => St.detectRow s.numLeaves sw.src = .ok r) (fun r h => h) fun r hr => ?_
  refine Follows.seq fun a => Follows.seq fun b => ?_
  refine Follows.seqAfter (Q := fun k => k = 2 ^ r) ?_ fun k hk => ?_
  · intro k hk
    unfold shl64 at hk
    split at hk
    · cases hk
      show 1 <<< r % two64 = 2 ^ r
      rw [Nat.shiftLeft_eq, Nat.one_mul]
      have h2 : 2 ^ r < 2 ^ 64 := Nat.pow_lt_pow_right (by omega) (by omega)
      exact Nat.mod_eq_of_lt h2
    · cases hk
  · subst hk
    have hsc : swapScan s.numLeaves sw = 2 * 2 ^ r := by unfold swapScan; rw [hr]
    unfold updatePosRangeS updatePosRange
    refine Follows.ite (fun h0 => ?_) fun h0 => ?_
    · exact .ok ⟨by unfold cost; rw [if_pos h0], rfl, Iff.rfl⟩
    · rw [P.read, P.read]
      cases vt.readLeafRange s a (2 ^ r) with
      | error e => exact .error e
      | ok l =>
        cases vt.readLeafRange s b (2 ^ r) with
        | error e => exact .error e
        | ok l' =>
          refine .ok ⟨?_, rfl, ?_⟩
          · unfold cost
            rw [if_neg h0, hsc, Nat.two_mul]
          · rw [shiftAll_empty, shiftAll_empty]

theorem runSwaps_scan (P : ScanOK vt sc) (Q : Places vt) : ∀ (sws : List St.Swap) (s : Acc H N X) (dirty : List (Option N)),
    Follows (fun x y => x = (y, cost s (rowScan s.numLeaves sws)) ∧ Kept s y.1)
      (runSwapsS vt sc sws s dirty) (runSwaps vt sws s dirty) := by
  intro sws
  induction sws with
  | nil => intro s dirty; exact .ok ⟨by unfold cost rowScan; simp, rfl, Iff.rfl⟩
  | cons sw sws ih =>
    intro s dirty
    rw [runSwaps, runSwapsS]
    refine Follows.bind (updatePosSubtree_scan P s sw) ?_
    rintro _ s1 ⟨rfl, h1⟩
    refine Follows.seqAfter (x := vt.swapSubTrees s1 sw.src sw.dst) (Q := fun r => Kept s1 r.2) ?_ ?_
    · intro r hr
      exact ⟨Q.swap _ _ _ r hr, by rw [P.swap _ _ _ r hr]⟩
    · rintro ⟨d, s2⟩ h2
      have h12 := h1.trans h2
      dsimp only
      refine (ih s2 _).mapLeft ?_
      rintro _ y ⟨rfl, h3⟩
      refine ⟨_, rfl, ?_, h12.trans h3⟩
      dsimp only
      rw [cost_kept h12, cost_add, h12.1]
      rfl

theorem rehashDirty_kept (P : ScanOK vt sc) (Q : Places vt) (cs : ℕ) : ∀ (ds : List (Option N)) (s : Acc H N X) (next : List N),
    After (rehashDirty vt cs ds s next) fun r => Kept s r.1 := by
  intro ds
  induction ds with
  | nil => intro s next; exact After.ok ⟨rfl, Iff.rfl⟩
  | cons d ds ih =>
    intro s next
    cases d with
    | none => exact After.error
    | some d =>
      rw [rehashDirty]
      refine After.bind (Q := fun r => Kept s r) ?_ fun s1 h1 => ?_
      · intro r hr
        exact ⟨Q.rehash _ _ r hr, by rw [P.rehash _ _ r hr]⟩
      have step : ∀ next' : List N, After (rehashDirty vt cs ds s1 next') fun r => Kept s r.1 := fun next' r hr =>
        h1.trans (ih _ _ r hr)
      have key : ∀ push : Bool, After
          (if push = true then do
            match ← vt.nodeParent s1 d with
            | some p => rehashDirty vt cs ds s1 (next ++ [p])
            | none => rehashDirty vt cs ds s1 next
          else rehashDirty vt cs ds s1 next) fun r => Kept s r.1 := by
        intro push
        cases push with
        | false => exact step next
        | true =>
          refine After.seq (x := vt.nodeParent s1 d) fun p => ?_
          cases p with
          | none => exact step next
          | some p => exact step _
      dsimp only
      cases next.getLast? with
      | none => exact After.seq fun push => key push
      | some l => exact After.seq fun _ => After.seq fun push => key push

theorem removeRows_scan (P : ScanOK vt sc) (Q : Places vt) (cs : ℕ) :
    ∀ (k : ℕ) (sws : List (List St.Swap)) (s : Acc H N X) (dirty : List N), sws.length ≤ k →
    Follows (fun x y => x = (y, cost s (rowSum (rowScan s.numLeaves) sws)) ∧ Kept s y.1)
      (removeRowsS vt sc cs k sws s dirty) (removeRows vt cs k sws s dirty) := by
  intro k
  induction k with
  | zero =>
    intro sws s dirty hl
    obtain rfl : sws = [] := List.eq_nil_of_length_eq_zero (by omega)
    exact .ok ⟨by unfold cost rowSum; simp, rfl, Iff.rfl⟩
  | succ k ih =>
    intro sws s dirty hl
    rw [removeRows, removeRowsS]
    refine Follows.bind (runSwaps_scan P Q _ s _) ?_
    rintro _ ⟨s1, d1⟩ ⟨rfl, h1⟩
    dsimp only at h1 ⊢
    refine Follows.seqAfter (rehashDirty_kept P Q cs d1 s1 []) ?_
    rintro ⟨s2, next⟩ h2
    dsimp only at h2 ⊢
    have h12 := h1.trans h2
    refine (ih sws.tail s2 next (by rw [List.length_tail]; omega)).mapLeft ?_
    rintro _ y ⟨rfl, h3⟩
    refine ⟨_, rfl, ?_, h12.trans h3⟩
    dsimp only
    rw [cost_kept h12, cost_add, h12.1, rowSum_step (rowScan s.numLeaves) rfl sws]

/-- Leaf positions looked up by a deletion, from the swaps that `Transform` answers. -/
def removeScan (n : ℕ) (full : Bool) (targets : List ℕ) : ℕ :=
  if full = true then
    match St.transform n targets with
    | .ok sws => rowSum (rowScan n) sws + targets.length
    | .error _ => 0
  else targets.length

theorem remove_scan (P : ScanOK vt sc) (Q : Places vt) (s : Acc H N X) (targets : List ℕ) (hn : s.numLeaves ≤ 2 ^ 62) :
    Follows (fun x y => ∃ c, x = (y, c) ∧ (y.1 = false ∨ targets = [] → c = 0) ∧
        (y.1 = true → (targets.Pairwise (· < ·) ∧ ∀ i ∈ targets, i < s.numLeaves) ∧
          c = if targets = [] then 0 else removeScan s.numLeaves (s.posmap.length != 0) targets))
      (removeS vt sc s targets) (remove vt s targets) := by
  unfold remove removeS
  refine Follows.ite (fun h0 => ?_) fun h0 => ?_
  · obtain rfl := List.eq_nil_of_length_eq_zero h0
    exact .ok ⟨0, rfl, fun _ => rfl, fun _ => ⟨by simp, by simp⟩⟩
  have hne : targets ≠ [] := fun h => h0 (by rw [h]; rfl)
  obtain ⟨b, hb1, hb2⟩ := C07_checkTargetsSanity s.numLeaves targets
  dsimp only
  rw [hb1, ok_bind, ok_bind]
  cases b with
  | false => exact .ok ⟨0, rfl, fun _ => rfl, fun h => by cases h⟩
  | true =>
    obtain ⟨hs1, hs2⟩ := hb2.1 rfl
    have hlen : targets.length ≤ s.numLeaves := by
      have := sorted_length_add_le targets 0 s.numLeaves hs1 (fun x hx => ⟨Nat.zero_le _, hs2 x hx⟩) (Nat.zero_le _)
      omega
    simp only [Bool.not_true, Bool.false_eq_true, if_false]
    refine Follows.seqAfter (Q := fun sws => sws.length ≤ St.numRows s.numLeaves ∧ St.transform s.numLeaves targets = .ok sws)
      (fun sws e => ⟨(transform_counts hn hs1 hs2 e).1, e⟩) ?_
    rintro sws ⟨h1, e⟩
    refine Follows.bind (removeRows_scan P Q s.numLeaves (St.numRows s.numLeaves) sws s [] h1) ?_
    rintro _ ⟨s1, dirty⟩ ⟨rfl, hk⟩
    dsimp only at hk ⊢
    refine Follows.seq fun _ => ?_
    rw [hk.1, sub64_ok hlen (by omega), P.final]
    cases vt.finalizeRemove s1 (s.numLeaves - targets.length) with
    | error e => exact .error e
    | ok s2 =>
      refine .ok ⟨_, rfl, ?_, fun _ => ⟨⟨hs1, hs2⟩, ?_⟩⟩
      · rintro (h | h)
        · cases h
        · exact absurd h hne
      · rw [if_neg hne, hk.1]
        unfold removeScan cost
        rw [e]
        by_cases hp : s.posmap.length = 0
        · simp only [hp, bne_self_eq_false, Bool.false_eq_true, if_false, if_true]; omega
        · rw [if_neg hp, if_pos (by simpa using hp)]; dsimp only; omega

end Acc

namespace Pol

theorem readLeafRange_scan (s : Pollard H) : ∀ (k p : ℕ), readLeafRangeS s p k = (readLeafRange s p k).map fun l => (l, k) := by
  intro k
  induction k with
  | zero => intro p; rfl
  | succ k ih =>
    intro p
    rw [readLeafRangeS, readLeafRange, ih]
    cases read s p with
    | error e => rfl
    | ok h =>
      rw [ok_bind, ok_bind]
      cases readLeafRange s (p + 1) k with
      | error e => rfl
      | ok l => cases h <;> rfl

theorem eraseLoop_scan (s : Pollard H) : ∀ (k p : ℕ) (m : PosMap H), eraseLoopS s p k m = (eraseLoop s p k m).map fun l => (l, k) := by
  intro k
  induction k with
  | zero => intro p m; rfl
  | succ k ih =>
    intro p m
    rw [eraseLoopS, eraseLoop]
    cases read s p with
    | error e => rfl
    | ok h =>
      rw [ok_bind, ok_bind]
      cases h with
      | none =>
        dsimp only
        rw [ih]
        cases eraseLoop s (p + 1) k m <;> rfl
      | some h =>
        dsimp only
        rw [ih]
        cases eraseLoop s (p + 1) k (PosMap.erase m h) <;> rfl

theorem scanOK : Acc.ScanOK (vt : VT H PNode (List (INode H))) scan where
  read := fun s p k => readLeafRange_scan s k p
  final := by
    intro s k
    show finalizeRemoveS s k = (finalizeRemove s k).map _
    unfold finalizeRemoveS finalizeRemove
    rw [eraseLoop_scan]
    cases eraseLoop s k (s.numLeaves - k) s.posmap with
    | error e => rfl
    | ok m =>
      show (St.rootPositionsOf s.numLeaves k >>= _) = Except.map _ (St.rootPositionsOf s.numLeaves k >>= _)
      cases St.rootPositionsOf s.numLeaves k with
      | error e => rfl
      | ok ps =>
        show (selectRoots ({ s with posmap := m } : Pollard H) ps.reverse [] >>= _) =
          Except.map _ (selectRoots ({ s with posmap := m } : Pollard H) ps.reverse [] >>= _)
        cases selectRoots ({ s with posmap := m } : Pollard H) ps.reverse [] <;> rfl
  swap := by
    intro s a b
    show After (swapSubTrees s a b) _
    unfold swapSubTrees
    refine After.seq fun x => After.seq fun y => ?_
    dsimp only
    split
    · rw [pure_ok, ok_bind]
      exact After.seq fun _ => After.pure rfl
    · refine After.seq fun z => After.seq fun w => After.seq fun v => ?_
      exact After.seq fun _ => After.pure rfl
  rehash := by
    intro s d
    show After (nodeReHash s d) _
    unfold nodeReHash
    refine After.seq fun x => ?_
    split
    · exact After.seq fun _ => After.seq fun _ => After.seq fun _ => After.seq fun _ => After.seq fun _ => After.pure rfl
    · exact After.pure rfl

theorem modify_scan (s : Pollard H) (leaves : List (Leaf H)) (targets : List ℕ) (hn : s.numLeaves ≤ 2 ^ 62) :
    Follows (fun x y => ∃ c, x = (y, c) ∧ (y.1 = false ∨ targets = [] → c = 0) ∧
        (y.1 = true → (targets.Pairwise (· < ·) ∧ ∀ i ∈ targets, i < s.numLeaves) ∧
          c = if targets = [] then 0 else Acc.removeScan s.numLeaves (s.posmap.length != 0) targets))
      (modifyS s leaves targets) (modify s leaves targets) := by
  unfold modifyS modify Acc.modify
  refine Follows.bind (Acc.remove_scan scanOK places s targets hn) ?_
  rintro _ ⟨ok, s1⟩ ⟨c, rfl, h1, h2⟩
  cases ok with
  | false => exact .ok ⟨c, rfl, h1, fun h => by cases h⟩
  | true =>
    simp only [Bool.not_true, Bool.false_eq_true, if_false]
    exact Follows.seq fun s2 => .ok ⟨c, rfl, h1, h2⟩

end Pol

namespace Ram

theorem readLeafRange_scan (s : RamForest H) : ∀ (k p : ℕ), readLeafRangeS s p k = (readLeafRange s p k).map fun l => (l, k) := by
  intro k
  induction k with
  | zero => intro p; rfl
  | succ k ih =>
    intro p
    rw [readLeafRangeS, readLeafRange, ih]
    cases read s p with
    | error e => rfl
    | ok h =>
      rw [ok_bind, ok_bind]
      cases readLeafRange s (p + 1) k <;> rfl

theorem eraseLoop_scan (s : RamForest H) : ∀ (k p : ℕ) (m : PosMap H), eraseLoopS s p k m = (eraseLoop s p k m).map fun l => (l, k) := by
  intro k
  induction k with
  | zero => intro p m; rfl
  | succ k ih =>
    intro p m
    rw [eraseLoopS, eraseLoop]
    cases read s p with
    | error e => rfl
    | ok h =>
      rw [ok_bind, ok_bind]
      dsimp only
      rw [ih]
      cases eraseLoop s (p + 1) k (PosMap.erase m h) <;> rfl

theorem swapTreeLoop_posmap : ∀ (fuel range : ℕ) (s : RamForest H) (a b : ℕ),
    After (swapTreeLoop s a b fuel range) fun r => r.1.posmap = s.posmap := by
  intro fuel
  induction fuel with
  | zero => intro _ _ _ _; exact After.error
  | succ fuel ih =>
    intro range s a b
    rw [swapTreeLoop]
    split
    · exact After.ok rfl
    · refine After.bind (Q := fun r => r.posmap = s.posmap) ?_ fun s1 h1 => After.seq fun a' => After.seq fun b' => ?_
      · unfold swapRange
        exact After.seq fun _ => After.seq fun _ => After.seq fun _ => After.seq fun _ => After.seq fun _ => After.pure rfl
      · rw [← h1]; exact ih _ _ _ _

theorem scanOK : Acc.ScanOK (vt : VT H (RNode H) (List (List H))) scan where
  read := fun s p k => readLeafRange_scan s k p
  final := by
    intro s k
    show finalizeRemoveS s k = (finalizeRemove s k).map _
    unfold finalizeRemoveS finalizeRemove
    rw [eraseLoop_scan]
    cases cassert (decide (k ≤ s.numLeaves)) with
    | error e => rfl
    | ok u =>
      rw [ok_bind, ok_bind]
      cases eraseLoop s k (s.numLeaves - k) s.posmap with
      | error e => rfl
      | ok m =>
        show (cassert (decide (m.length = k)) >>= _) = Except.map _ (cassert (decide (m.length = k)) >>= _)
        cases cassert (decide (m.length = k)) with
        | error e => rfl
        | ok u =>
          rw [ok_bind, ok_bind]
          cases St.rootPositionsOf s.numLeaves k with
          | error e => rfl
          | ok ps =>
            rw [ok_bind, ok_bind]
            cases readRoots ({ s with posmap := m } : RamForest H) k ps <;> rfl
  swap := by
    intro s a b
    show After (swapSubTrees s a b) _
    unfold swapSubTrees
    exact After.seq fun _ => After.seq fun _ => After.seq fun _ => After.seq fun _ => After.seq fun _ => After.seq fun _ =>
      After.bind (swapTreeLoop_posmap _ _ _ _ _) fun r hr => After.pure hr
  rehash := by
    intro s d
    show After (nodeReHash s d) _
    unfold nodeReHash
    exact After.seq fun _ => After.seq fun _ => After.seq fun _ => After.seq fun _ => After.seq fun _ => After.seq fun _ =>
      After.seq fun _ => After.seq fun _ => After.pure rfl

theorem modify_scan (s : RamForest H) (leaves : List (Leaf H)) (targets : List ℕ) (hn : s.numLeaves ≤ 2 ^ 62) :
    Follows (fun x y => ∃ c, x = (y, c) ∧ (targets = [] → c = 0) ∧
        (y.1 = true → (targets.Pairwise (· < ·) ∧ ∀ i ∈ targets, i < s.numLeaves) ∧
          c = if targets = [] then 0 else Acc.removeScan s.numLeaves (s.posmap.length != 0) targets))
      (modifyS s leaves targets) (modify s leaves targets) := by
  unfold modifyS modify
  refine Follows.bind (Acc.remove_scan scanOK places s targets hn) ?_
  rintro _ ⟨ok, s1⟩ ⟨c, rfl, h1, h2⟩
  cases ok with
  | false => exact .ok ⟨c, rfl, fun h => h1 (.inr h), fun h => by cases h⟩
  | true =>
    simp only [Bool.not_true, Bool.false_eq_true, if_false]
    refine Follows.seq fun u => ?_
    cases u with
    | none => exact .ok ⟨c, rfl, fun h => h1 (.inr h), fun h => by cases h⟩
    | some u => exact Follows.seq fun s2 => .ok ⟨c, rfl, fun h => h1 (.inr h), h2⟩

end Ram

end Utreexo
