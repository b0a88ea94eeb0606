import Verif.Proof.SelfCheck

/-! # The self-checks of a pollard -/

set_option linter.unusedSectionVars false

namespace Utreexo
open Spec Equiv

variable {H : Type} [DecidableEq H] [HashOps H]

theorem Sim.never {α : Type} {x y : Res α} (h : After x fun _ => False) : Sim y x := fun a ha => (h a ha).elim

namespace Pol

theorem readLoopV_eq {heap : List (INode H)} {n r i bits t : ℕ} (hn : n ≤ 2 ^ 62)
    (hi : ∀ q, r < q → q ≤ t → i / 2 ^ (q - r) < n / 2 ^ q)
    (hbits : ∀ j, j < t - r → bits.testBit j = !i.testBit j) :
    ∀ (k : ℕ) (node sib : Option ℕ) (path : List PEntry), r + k ≤ t →
      readLoopV heap n bits k node sib (posOf (St.numRows n) (r + k) (i / 2 ^ k)) path =
        readLoop heap n bits k node sib (posOf (St.numRows n) (r + k) (i / 2 ^ k)) path := by
  have hR := numRows_le_62 hn
  intro k
  induction k with
  | zero => intro _ _ _ _; rfl
  | succ k ih =>
    intro node sib path h1
    have hin := hi (r + (k + 1)) (by omega) h1
    rw [show r + (k + 1) - r = k + 1 by omega] at hin
    have e1 : i / 2 ^ k / 2 = i / 2 ^ (k + 1) := div_div_two i k
    obtain ⟨r1, i1⟩ := row_le hn hin
    have hbit : bits / 2 ^ k % 2 = 1 - i / 2 ^ k % 2 := by
      have := hbits k (by omega)
      rw [Nat.testBit_eq_decide_div_mod_eq, Nat.testBit_eq_decide_div_mod_eq] at this
      have g1 := Nat.mod_two_eq_zero_or_one (bits / 2 ^ k)
      have g2 := Nat.mod_two_eq_zero_or_one (i / 2 ^ k)
      rcases g1 with g1 | g1 <;> rcases g2 with g2 | g2 <;> simp [g1, g2] at this ⊢
    have hsib : St.sibling (bits / 2 ^ k % 2) = i / 2 ^ k % 2 := by
      rw [hbit]; unfold St.sibling
      rcases Nat.mod_two_eq_zero_or_one (i / 2 ^ k) with h | h <;> rw [h] <;> rfl
    have hge : n ≤ posOf (St.numRows n) (r + (k + 1)) (i / 2 ^ (k + 1)) := by
      by_contra hc
      have := (pos_lt_iff hn hin).1 (by omega)
      omega
    rw [readLoopV, readLoop, shr64_ok (by omega), ok_bind, ok_bind]
    simp only [hsib]
    cases sib with
    | none => rfl
    | some sp =>
      simp only
      cases hg : vecGet heap sp with
      | error e => rfl
      | ok x =>
        have hi' : i / 2 ^ (k + 1) < 2 ^ (St.numRows n - (r + k)) :=
          lt_of_lt_of_le i1 (Nat.pow_le_pow_right (by omega) (by omega))
        rw [ok_bind, ok_bind, St.childV_eq hge, show posOf (St.numRows n) (r + (k + 1)) = posOf (St.numRows n) (r + k + 1) from rfl,
          child_posOf (by omega) (by omega) hi' (by omega : i / 2 ^ k % 2 < 2), ok_bind, ok_bind, ← e1,
          show 2 * (i / 2 ^ k / 2) + i / 2 ^ k % 2 = i / 2 ^ k by omega]
        exact ih _ _ _ (by omega)

theorem readSiblingsV_eq {s : Pollard H} {n : ℕ} (hs : s.numLeaves = n) (hn : n ≤ 2 ^ 62) {r i : ℕ} (hi : i < n / 2 ^ r) :
    readSiblingsV s (posOf (St.numRows n) r i) = readSiblings s (posOf (St.numRows n) r i) := by
  obtain ⟨t, tree, bits, h1, h2, h3, h4, h5⟩ := path_eq (by omega) (inForest_iff.2 hi)
  have hroot := inTree_root h2 h1
  rw [Ram.treeRows_eq hn le_rfl] at h3
  have hps : ((treeRows n (St.numRows n + 1)).map fun t => posOf (St.numRows n) t (rootIdx n t))[tree]? =
      some (posOf (St.numRows n) t (rootIdx n t)) := by
    rw [Ram.treeRows_eq hn le_rfl, List.getElem?_map, h3]; rfl
  unfold readSiblingsV readSiblings
  rw [hs, h5, ok_bind, ok_bind]
  simp only
  rw [rootPositions_eq hn, ok_bind, ok_bind, vecGet_ok hps, ok_bind, ok_bind]
  cases vecGet s.roots tree with
  | error e => rfl
  | ok x =>
    rw [ok_bind, ok_bind]
    split
    · rfl
    · have e : r + (t - r) = t := by omega
      have := readLoopV_eq (heap := s.ext) hn (fun q hq hqt => anc_in h2 (by omega) hqt) h4 (t - r) x.e.node x.e.node [] (by omega)
      rw [e, hroot] at this
      exact this

theorem readV_eq {s : Pollard H} {n : ℕ} (hs : s.numLeaves = n) (hn : n ≤ 2 ^ 62) {r i : ℕ} (hi : i < n / 2 ^ r) :
    readV s (posOf (St.numRows n) r i) = read s (posOf (St.numRows n) r i) := by
  unfold readV read
  rw [readSiblingsV_eq hs hn hi]
  cases readSiblings s (posOf (St.numRows n) r i) with
  | error e => rfl
  | ok x => rfl

theorem readV_leaf {s : Pollard H} {n : ℕ} (hs : s.numLeaves = n) (hn : n ≤ 2 ^ 62) {i : ℕ} (hi : i < n) : readV s i = read s i := by
  have := readV_eq (r := 0) (i := i) hs hn (by simpa using hi)
  rw [posOf_zero] at this
  exact this

theorem readLeafRangeV_eq {s : Pollard H} {n : ℕ} (hs : s.numLeaves = n) (hn : n ≤ 2 ^ 62) : ∀ (k pos : ℕ), pos + k ≤ n →
    readLeafRangeV s pos k = readLeafRange s pos k := by
  intro k
  induction k with
  | zero => intro _ _; rfl
  | succ k ih =>
    intro pos h
    rw [readLeafRangeV, readLeafRange, readV_leaf hs hn (by omega), ih (pos + 1) (by omega)]
    cases read s pos with
    | error e => rfl
    | ok x => cases readLeafRange s (pos + 1) k <;> rfl

theorem eraseLoopV_eq {s : Pollard H} {n : ℕ} (hs : s.numLeaves = n) (hn : n ≤ 2 ^ 62) : ∀ (k pos : ℕ) (m : PosMap H), pos + k ≤ n →
    eraseLoopV s pos k m = eraseLoop s pos k m := by
  intro k
  induction k with
  | zero => intro _ _ _; rfl
  | succ k ih =>
    intro pos m h
    rw [eraseLoopV, eraseLoop, readV_leaf hs hn (by omega)]
    cases read s pos with
    | error e => rfl
    | ok o =>
      rw [ok_bind, ok_bind]
      cases o with
      | none => exact ih _ _ (by omega)
      | some h' => exact ih _ _ (by omega)

theorem swapContents_none {heap : List (INode H)} {a b c : Option ℕ} : After (swapContents heap none a b c) fun _ => False := by
  unfold swapContents
  exact After.seq fun _ => After.error

theorem swapContents_none' {heap : List (INode H)} {a b c : Option ℕ} : After (swapContents heap a b none c) fun _ => False := by
  unfold swapContents
  exact After.error

theorem swapSubTreesV_sim {s : Pollard H} {n : ℕ} (hs : s.numLeaves = n) (hn : n ≤ 2 ^ 62) {sw : St.Swap} (h : Acc.SwapOk n sw) :
    Sim (swapSubTreesV s sw.src sw.dst) (swapSubTrees s sw.src sw.dst) := by
  obtain ⟨r, i, j, e1, e2, -, hi, hj⟩ := h
  unfold swapSubTreesV swapSubTrees
  rw [e1, readSiblingsV_eq hs hn hi, ← e1]
  refine Sim.seq fun x _ => ?_
  obtain ⟨nodeFrom, sibFrom0, path⟩ := x
  dsimp only
  cases nodeFrom with
  | none =>
    apply Sim.never
    refine After.seq fun y => ?_
    split
    · exact After.seq fun _ => After.bind swapContents_none fun _ h => h.elim
    · exact After.seq fun _ => After.seq fun _ => After.seq fun _ => After.bind swapContents_none fun _ h => h.elim
  | some p =>
    refine Sim.check rfl (Sim.seq fun y _ => ?_)
    obtain ⟨sibFrom, heap⟩ := y
    dsimp only
    split
    · exact Sim.refl
    · have hr := readSiblingsV_eq (s := { s with ext := heap }) hs hn hj
      rw [e2, hr, ← e2]
      refine Sim.seq fun z _ => ?_
      obtain ⟨nodeTo, sibTo0, path'⟩ := z
      dsimp only
      cases nodeTo with
      | none =>
        apply Sim.never
        refine After.seq fun w => ?_
        rw [pure_ok, ok_bind]
        exact After.bind swapContents_none' fun _ h => h.elim
      | some q => exact Sim.check rfl Sim.refl

theorem selectRootsV_sim {n : ℕ} (hn : n ≤ 2 ^ 62) : ∀ (ps : List ℕ) (s : Pollard H) (acc : List PNode), s.numLeaves = n →
    (∀ p ∈ ps, ∃ r i, p = posOf (St.numRows n) r i ∧ i < n / 2 ^ r) → Sim (selectRootsV s ps acc) (selectRoots s ps acc) := by
  intro ps
  induction ps with
  | nil => intro _ _ _ _; exact Sim.refl
  | cons p ps ih =>
    intro s acc hs h
    have h' : ∀ p ∈ ps, ∃ r i, p = posOf (St.numRows n) r i ∧ i < n / 2 ^ r := fun x hx => h x (List.mem_cons_of_mem _ hx)
    obtain ⟨r, i, e, hi⟩ := h p (by simp)
    rw [selectRootsV, selectRoots, e, readSiblingsV_eq hs hn hi]
    refine Sim.seq fun x _ => ?_
    obtain ⟨node, sib, path⟩ := x
    dsimp only
    cases node with
    | none => exact Sim.never After.error
    | some q =>
      refine Sim.check rfl (Sim.seq fun y _ => ?_)
      cases sib with
      | none => exact Sim.seq fun heap _ => ih _ _ hs h'
      | some q' => exact Sim.seq fun _ _ => Sim.seq fun heap _ => ih _ _ hs h'

theorem finalizeRemoveV_sim {s : Pollard H} {n k : ℕ} (hs : s.numLeaves = n) (hn : n ≤ 2 ^ 62) (hk : k ≤ n) :
    Sim (finalizeRemoveV s k) (finalizeRemove s k) := by
  unfold finalizeRemoveV finalizeRemove
  rw [eraseLoopV_eq hs hn _ _ _ (by omega)]
  refine Sim.seq fun m _ => ?_
  dsimp only
  rw [hs]
  refine Sim.seq fun ps e => ?_
  refine Sim.bind (selectRootsV_sim hn _ _ _ rfl ?_) fun _ _ => Sim.refl
  intro p hp
  rw [List.mem_reverse] at hp
  rw [rootPositionsOf_eq hn hk] at e
  injection e with e
  rw [← e] at hp
  obtain ⟨t, ht, rfl⟩ := List.mem_map.1 hp
  have hb := (mem_treeRows.1 ht).2
  exact ⟨t, _, rfl, lt_of_lt_of_le (Ram.root_in hb) (Nat.div_le_div_right hk)⟩

theorem agree {n : ℕ} (hn : n ≤ 2 ^ 62) : Acc.Agree (vtV : VT H PNode (List (INode H))) vt n fun _ => True where
  range := fun s pos k hs h => Sim.of_eq (readLeafRangeV_eq hs hn k pos h)
  swap := fun s sw hs h => swapSubTreesV_sim hs hn h
  swapG := by
    intro s a b hs
    change After (swapSubTrees s a b) _
    unfold swapSubTrees
    refine After.seq fun _ => After.seq fun _ => ?_
    dsimp only
    split
    · exact After.seq fun _ => After.seq fun _ => After.pure ⟨hs, fun _ _ => trivial⟩
    · exact After.seq fun _ => After.seq fun _ => After.seq fun _ => After.seq fun _ => After.pure ⟨hs, fun _ _ => trivial⟩
  rehash := fun _ _ _ _ => Sim.refl
  rehashG := by
    intro s d hs
    change After (nodeReHash s d) _
    unfold nodeReHash
    refine After.seq fun _ => ?_
    split
    · exact After.seq fun _ => After.seq fun _ => After.seq fun _ => After.seq fun _ => After.seq fun _ => After.pure hs
    · exact After.pure hs
  pos := rfl
  parent := rfl
  parentG := fun _ _ _ _ _ _ _ => trivial
  final := fun s k hs h => finalizeRemoveV_sim hs hn h

end Pol
end Utreexo
