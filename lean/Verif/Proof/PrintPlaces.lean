import Verif.Proof.Print
import Verif.Proof.PolVerify

/-! # Positions stored in the roots of forests and pollards -/

set_option linter.unusedSectionVars false

namespace Utreexo
open Spec Equiv

variable {H : Type} [DecidableEq H] [HashOps H]

namespace Ram

theorem readRoots_places (s : RamForest H) (k : ℕ) : ∀ ps : List ℕ, After (readRoots s k ps) fun r => r.map RNode.pos = ps := by
  intro ps
  induction ps with
  | nil => exact After.ok rfl
  | cons p ps ih =>
    rw [readRoots]
    exact After.seq fun h => After.bind ih fun r hr => After.pure (by rw [List.map_cons, hr])

theorem swapTreeLoop_num : ∀ (fuel range : ℕ) (s : RamForest H) (a b : ℕ),
    After (swapTreeLoop s a b fuel range) fun r => r.1.numLeaves = s.numLeaves := by
  intro fuel
  induction fuel with
  | zero => intro _ _ _ _; exact After.error
  | succ fuel ih =>
    intro range s a b
    rw [swapTreeLoop]
    split
    · exact After.ok rfl
    · refine After.bind (Q := fun r => r.numLeaves = s.numLeaves) ?_ fun s1 h1 => After.seq fun a' => After.seq fun b' => ?_
      · unfold swapRange
        exact After.seq fun _ => After.seq fun _ => After.seq fun _ => After.seq fun _ => After.seq fun _ => After.pure rfl
      · rw [← h1]; exact ih _ _ _ _

theorem places : Acc.Places (vt : VT H (RNode H) (List (List H))) where
  leaf := by
    intro s l
    show After (newLeaf s l) _
    unfold newLeaf
    exact After.seq fun _ => After.seq fun _ => After.pure ⟨rfl, rfl, by simp [vt]⟩
  merge := by
    intro s p h
    show After (mergeRoot s p h) _
    unfold mergeRoot
    refine After.seq fun _ => After.seq fun _ => After.seq fun _ => After.seq fun _ => After.seq fun _ => After.seq fun _ =>
      After.seq fun _ => After.pure ⟨rfl, rfl, ?_⟩
    simp [vt, List.map_dropLast]
  set := fun _ _ => rfl
  swap := by
    intro s a b
    show After (swapSubTrees s a b) _
    unfold swapSubTrees
    exact After.seq fun _ => After.seq fun _ => After.seq fun _ => After.seq fun _ => After.seq fun _ => After.seq fun _ =>
      After.bind (swapTreeLoop_num _ _ _ _ _) fun r hr => After.pure hr
  rehash := by
    intro s d
    show After (nodeReHash s d) _
    unfold nodeReHash
    exact After.seq fun _ => After.seq fun _ => After.seq fun _ => After.seq fun _ => After.seq fun _ => After.seq fun _ =>
      After.seq fun _ => After.seq fun _ => After.pure rfl
  final := by
    intro s k
    show After (finalizeRemove s k) _
    unfold finalizeRemove
    refine After.seq fun _ => After.seq fun _ => After.seq fun _ => ?_
    intro r hr
    obtain ⟨ps, e1, hr⟩ := bind_eq_ok.1 hr
    obtain ⟨rs, e2, hr⟩ := bind_eq_ok.1 hr
    simp only [pure_ok, Except.ok.injEq] at hr
    subst hr
    rw [e1]
    exact congrArg _ (readRoots_places _ _ _ _ e2).symm

theorem restoreRoots_shown {s s' : RamForest H} (hn : s.numLeaves ≤ 2 ^ 62) (h : restoreRoots s = .ok s') :
    s'.numLeaves = s.numLeaves ∧ Acc.ShownAs vt s' (Marks.now s.numLeaves) := by
  unfold restoreRoots at h
  obtain ⟨ps, e1, h⟩ := bind_eq_ok.1 h
  obtain ⟨rs, e2, h⟩ := bind_eq_ok.1 h
  simp only [pure_ok, Except.ok.injEq] at h
  subst h
  refine ⟨rfl, ?_⟩
  have h1 := readRoots_places _ _ _ _ e2
  rw [rootPositions_eq hn, treeRows_eq hn le_rfl] at e1
  simp only [Except.ok.injEq] at e1
  unfold Acc.ShownAs Marks.shown Marks.now
  show rs.map RNode.pos = _
  rw [h1, ← e1, rowsOf_eq hn]

theorem add_shown {s s' : RamForest H} {leaves : List (Leaf H)} {m : Marks} (hn : s.numLeaves + leaves.length ≤ 2 ^ 62)
    (hm : Acc.ShownAs vt s m) (h : add s leaves = .ok s') :
    s'.numLeaves = s.numLeaves + leaves.length ∧ Acc.ShownAs vt s' (Marks.more m s.numLeaves leaves.length) := by
  unfold add at h
  obtain ⟨data, -, h⟩ := bind_eq_ok.1 h
  obtain ⟨_, -, h⟩ := bind_eq_ok.1 h
  obtain ⟨s1, e1, h⟩ := bind_eq_ok.1 h
  obtain ⟨_, -, h⟩ := bind_eq_ok.1 h
  obtain ⟨_, -, h⟩ := bind_eq_ok.1 h
  simp only [pure_ok, Except.ok.injEq] at h
  subst h
  exact Acc.add_places places (s := { s with ext := data }) hn hm e1

theorem modify_shown {s s' : RamForest H} {leaves : List (Leaf H)} {targets : List ℕ} {u : Option (UndoBatch H)} {m : Marks}
    (hn : s.numLeaves ≤ 2 ^ 62) (ht : s.numLeaves - targets.length + leaves.length ≤ 2 ^ 62)
    (hm : Acc.ShownAs vt s m) (h : modify s leaves targets = .ok (true, u, s')) :
    s'.numLeaves = s.numLeaves - targets.length + leaves.length ∧
      Acc.ShownAs vt s' (m.block s.numLeaves targets.length leaves.length) := by
  unfold modify at h
  obtain ⟨⟨b, s1⟩, e1, h⟩ := bind_eq_ok.1 h
  cases b with
  | false => simp at h
  | true =>
    simp only [Bool.not_true, Bool.false_eq_true, if_false] at h
    obtain ⟨o, -, h⟩ := bind_eq_ok.1 h
    cases o with
    | none => simp at h
    | some u1 =>
      simp only at h
      obtain ⟨s2, e2, h⟩ := bind_eq_ok.1 h
      simp only [pure_ok, Except.ok.injEq, Prod.mk.injEq, true_and] at h
      obtain ⟨-, rfl⟩ := h
      obtain ⟨a1, a2, a3⟩ := Acc.remove_places places hn hm e1
      obtain ⟨b1, b2⟩ := add_shown (by omega) a3 e2
      rw [a2] at b1 b2
      rw [← Acc.block_eq]
      exact ⟨b1, b2⟩

theorem reopen_shown {s s' : RamForest H} (hn : s.numLeaves ≤ 2 ^ 62) (h : reopen s = .ok s') :
    s'.numLeaves = s.numLeaves ∧ Acc.ShownAs vt s' (Marks.now s.numLeaves) := by
  unfold reopen at h
  obtain ⟨data, -, h⟩ := bind_eq_ok.1 h
  exact restoreRoots_shown (s := Acc.mk s.numLeaves [] _ data) hn h

end Ram

namespace Pol

theorem selectRoots_places : ∀ (ps : List ℕ) (s : Pollard H) (acc : List PNode),
    After (selectRoots s ps acc) fun r => r.2.map (fun d => d.e.pos) = ps.reverse ++ acc.map fun d => d.e.pos := by
  intro ps
  induction ps with
  | nil => intro s acc; exact After.ok rfl
  | cons p ps ih =>
    intro s acc
    rw [selectRoots]
    refine After.seq fun x => After.seq fun y => ?_
    have key : ∀ heap node, After (selectRoots ({ s with ext := heap } : Pollard H) ps
        ({ e := { node := node, sib := node, pos := p }, up := [] } :: acc)) fun r =>
          r.2.map (fun d => d.e.pos) = (p :: ps).reverse ++ acc.map fun d => d.e.pos := by
      intro heap node
      intro r hr
      rw [ih _ _ r hr]; simp
    dsimp only
    split
    · exact After.seq fun _ => After.seq fun _ => key _ _
    · exact After.seq fun _ => key _ _

theorem places : Acc.Places (vt : VT H PNode (List (INode H))) where
  leaf := by
    intro s l
    show After (newLeaf s l) _
    unfold newLeaf
    exact After.ok ⟨rfl, rfl, by simp [vt]⟩
  merge := by
    intro s p h
    show After (mergeRoot s p h) _
    unfold mergeRoot
    split
    · rename_i r l rest hr
      have hroots : s.roots = rest.reverse ++ [l, r] := by
        have := congrArg List.reverse hr
        rw [List.reverse_reverse] at this
        rw [this]; simp
      refine After.seq fun _ => After.seq fun _ => After.seq fun _ => After.seq fun _ => After.seq fun _ => After.seq fun _ =>
        After.seq fun _ => ?_
      dsimp only
      split
      · exact After.seq fun _ => After.pure ⟨rfl, rfl, by rw [hroots]; simp [vt, List.dropLast_append_of_ne_nil]⟩
      · rw [pure_ok, ok_bind]
        exact After.pure ⟨rfl, rfl, by rw [hroots]; simp [vt, List.dropLast_append_of_ne_nil]⟩
    · exact After.error
  set := fun _ _ => rfl
  swap := by
    intro s a b
    show After (swapSubTrees s a b) _
    unfold swapSubTrees
    refine After.seq fun x => After.seq fun y => ?_
    dsimp only
    split
    · rw [pure_ok, ok_bind]
      exact After.seq fun _ => After.pure rfl
    · refine After.seq fun z => After.seq fun w => After.seq fun v => ?_
      exact After.seq fun _ => After.pure rfl
  rehash := by
    intro s d
    show After (nodeReHash s d) _
    unfold nodeReHash
    refine After.seq fun x => ?_
    split
    · exact After.seq fun _ => After.seq fun _ => After.seq fun _ => After.seq fun _ => After.seq fun _ => After.pure rfl
    · exact After.pure rfl
  final := by
    intro s k
    show After (finalizeRemove s k) _
    unfold finalizeRemove
    refine After.seq fun m => ?_
    intro r hr
    obtain ⟨ps, e1, hr⟩ := bind_eq_ok.1 hr
    obtain ⟨⟨s1, rs⟩, e2, hr⟩ := bind_eq_ok.1 hr
    simp only [pure_ok, Except.ok.injEq] at hr
    subst hr
    have := selectRoots_places _ _ _ _ e2
    simp only [List.reverse_reverse, List.map_nil, List.append_nil] at this
    simp only at e1
    rw [e1]
    exact congrArg _ this.symm

theorem modify_shown {s s' : Pollard H} {leaves : List (Leaf H)} {targets : List ℕ} {m : Marks}
    (hn : s.numLeaves ≤ 2 ^ 62) (ht : s.numLeaves - targets.length + leaves.length ≤ 2 ^ 62)
    (hm : Acc.ShownAs vt s m) (h : modify s leaves targets = .ok (true, s')) :
    s'.numLeaves = s.numLeaves - targets.length + leaves.length ∧
      Acc.ShownAs vt s' (m.block s.numLeaves targets.length leaves.length) := by
  unfold modify Acc.modify at h
  obtain ⟨⟨b, s1⟩, e1, h⟩ := bind_eq_ok.1 h
  cases b with
  | false => simp at h
  | true =>
    simp only [Bool.not_true, Bool.false_eq_true, if_false] at h
    obtain ⟨s2, e2, h⟩ := bind_eq_ok.1 h
    simp only [pure_ok, Except.ok.injEq, Prod.mk.injEq, true_and] at h
    subst h
    obtain ⟨a1, a2, a3⟩ := Acc.remove_places places hn hm e1
    obtain ⟨b1, b2⟩ := Acc.add_places places (by omega) a3 e2
    rw [a2] at b1 b2
    rw [← Acc.block_eq]
    exact ⟨b1, b2⟩

theorem mkRoots_places : ∀ (hs : List H) (ps : List ℕ) (heap : List (INode H)), hs.length = ps.length →
    After (mkRoots hs ps heap) fun r => r.1.map (fun d => d.e.pos) = ps := by
  intro hs
  induction hs with
  | nil =>
    intro ps heap hl
    cases ps with
    | nil => exact After.ok rfl
    | cons p ps => simp at hl
  | cons h hs ih =>
    intro ps heap hl
    cases ps with
    | nil => exact After.error
    | cons p ps =>
      rw [mkRoots]
      exact After.bind (ih ps _ (by simpa using hl)) fun r hr => After.pure (by rw [List.map_cons, hr])

theorem fromRoots_shown {rs : List H} {n : ℕ} {s : Pollard H} (hn : n ≤ 2 ^ 62) (h : fromRoots rs n = .ok s) :
    s.numLeaves = n ∧ Acc.ShownAs vt s (Marks.now n) := by
  unfold fromRoots at h
  obtain ⟨_, -, h⟩ := bind_eq_ok.1 h
  obtain ⟨ps, e1, h⟩ := bind_eq_ok.1 h
  obtain ⟨_, e2, h⟩ := bind_eq_ok.1 h
  obtain ⟨⟨r, heap⟩, e3, h⟩ := bind_eq_ok.1 h
  simp only [pure_ok, Except.ok.injEq] at h
  subst h
  refine ⟨rfl, ?_⟩
  have hl : ps.length = rs.length := by
    by_contra hc
    simp [cassert, hc] at e2
  have h1 := mkRoots_places rs ps _ hl.symm _ e3
  rw [rootPositions_eq hn, Ram.treeRows_eq hn le_rfl] at e1
  simp only [Except.ok.injEq] at e1
  unfold Acc.ShownAs Marks.shown Marks.now
  show r.map (fun d => d.e.pos) = _
  rw [h1, ← e1, rowsOf_eq hn]
  rfl

/-! ## `Verify` -/

/-- The roots in the local state of the verification are shown with these marks. -/
def RootsShown (roots : List PNode) (n : ℕ) (m : Marks) : Prop := roots.map (fun d => d.e.pos) = m.shown n

theorem inTree_div {n h a : ℕ} (hb : n.testBit h = true) : InTree n h a ↔ a / 2 ^ h = rootIdx n h := by
  unfold InTree treeStart rootIdx
  rw [pow_succ]
  have hp : 0 < 2 ^ h := by positivity
  constructor
  · rintro ⟨-, h1, h2⟩
    apply Nat.div_eq_of_lt_le
    · calc _ = _ := by ring
        _ ≤ a := h1
    · calc a < _ := h2
        _ = _ := by ring
  · intro e
    refine ⟨hb, ?_, ?_⟩
    · calc n / (2 ^ h * 2) * (2 ^ h * 2) = a / 2 ^ h * 2 ^ h := by rw [e]; ring
        _ ≤ a := Nat.div_mul_le_self _ _
    · have h1 := Nat.div_add_mod a (2 ^ h)
      have h2 := Nat.mod_lt a hp
      calc a < 2 ^ h * (a / 2 ^ h) + 2 ^ h := by omega
        _ = _ := by rw [e]; ring

theorem root_mem_Cn {n : ℕ} {D : List ℕ} (hD : Sane n D) {h : ℕ} (hb : n.testBit h = true) :
    rootIdx n h ∈ Cn n D h ↔ ∃ a ∈ D, InTree n h a := by
  rw [mem_Cn hD]
  constructor
  · rintro ⟨-, t, h1, h2⟩
    exact ⟨t, h1, (inTree_div hb).2 h2⟩
  · rintro ⟨t, h1, h2⟩
    exact ⟨Ram.root_in hb, t, h1, (inTree_div hb).1 h2⟩

/-- The marks after the rows from `k` on have been attached. -/
noncomputable def attached (m : Marks) (n : ℕ) (D : List ℕ) (k : ℕ) : Marks := fun h =>
  open Classical in if h = k ∧ ∃ a ∈ D, InTree n h a then rowsOf n else m h

theorem attachRoot_places {K : Ctx H} {c c' : CPT H} {k : ℕ} {tree tree' : List ℕ} {m : Marks} (hS : Sane K.n K.D)
    (hk : k ≤ St.numRows K.n)
    (hcomp : c.compPos = (Cn K.n K.D k).reverse.map (posOf (St.numRows K.n) k) ++ posRev (St.numRows K.n) (Cn K.n K.D) k)
    (hm : RootsShown c.roots K.n m) (h : attachRoot K.n k c tree = .ok (c', tree')) :
    RootsShown c'.roots K.n (attached m K.n K.D k) := by
  have hR := numRows_le_62 hS.n62
  -- nothing is attached
  have same : ¬ (K.n.testBit k = true ∧ rootIdx K.n k ∈ Cn K.n K.D k) → RootsShown c.roots K.n (attached m K.n K.D k) := by
    intro hno
    unfold RootsShown at hm ⊢
    rw [hm]
    apply shown_congr
    intro t ht
    unfold attached
    rw [if_neg]
    rintro ⟨rfl, ht2⟩
    have hb := (mem_treeRows.1 ht).2
    exact hno ⟨hb, (root_mem_Cn hS hb).2 ht2⟩
  have inComp : ∀ p, p ∈ c.compPos → K.n.testBit k = true → p = posOf (St.numRows K.n) k (rootIdx K.n k) → rootIdx K.n k ∈ Cn K.n K.D k := by
    intro p hp hb e
    rw [hcomp, List.mem_append] at hp
    rcases hp with hp | hp
    · obtain ⟨z, hz1, rfl⟩ := List.mem_map.1 hp
      have hz2 := List.mem_reverse.1 hz1
      by_contra hc
      exact pos_ne hS.n62 ((Cn_ok hS k).2 z hz2) (Ram.root_in hb) (by rintro ⟨-, rfl⟩; exact hc hz2) e
    · obtain ⟨q, z, h1, h2, rfl⟩ := mem_posRev hp
      exact absurd e (pos_ne hS.n62 ((Cn_ok hS q).2 z h2) (Ram.root_in hb) (by omega))
  have head : K.n.testBit k = true → rootIdx K.n k ∈ Cn K.n K.D k →
      c.compPos.head? = some (posOf (St.numRows K.n) k (rootIdx K.n k)) := by
    intro hb hmem
    obtain ⟨l', hl'⟩ := sorted_last (Cn_ok hS k).1 hmem (by
      intro x hx
      have h1 := (Cn_ok hS k).2 x hx
      have h2 := testBit_div (n := K.n) (t := k)
      rw [if_pos hb] at h2
      rw [rootIdx_le]; omega)
    rw [hcomp, hl', List.reverse_append]; rfl
  unfold attachRoot at h
  cases hc : c.compPos with
  | nil =>
    rw [hc] at h
    simp only [Except.ok.injEq, Prod.mk.injEq] at h
    obtain ⟨rfl, -⟩ := h
    apply same
    rintro ⟨hb, hmem⟩
    have := head hb hmem
    rw [hc] at this; simp at this
  | cons p ps =>
    rw [hc] at h
    simp only [] at h
    rw [hasRoot_eq (by omega), ok_bind] at h
    by_cases hb : K.n.testBit k = true
    · rw [hb, if_pos rfl, rootPosition_eq hS.n62 hk, ok_bind] at h
      by_cases he : p = posOf (St.numRows K.n) k (rootIdx K.n k)
      · rw [if_pos he, he] at h
        have hmem := inComp p (by rw [hc]; simp) hb he
        obtain ⟨i, hi1, hi2⟩ := rootIndex_root hS.n62 hb
        rw [hi1, ok_bind] at h
        obtain ⟨r, e1, h⟩ := bind_eq_ok.1 h
        simp only [pure_ok, Except.ok.injEq, Prod.mk.injEq] at h
        obtain ⟨rfl, -⟩ := h
        unfold RootsShown at hm ⊢
        show (c.roots.set i _).map (fun d => d.e.pos) = _
        rw [List.map_set, hm]
        unfold rootCoords at hi2
        rw [List.getElem?_map, Option.map_eq_some_iff] at hi2
        obtain ⟨t, hi2, hi3⟩ := hi2
        simp only [Prod.mk.injEq] at hi3
        obtain ⟨rfl, -⟩ := hi3
        have hnd : (treeRows K.n 64).Nodup := (treeRows_sorted K.n 64).imp (fun h => by omega)
        unfold Marks.shown
        apply List.ext_getElem?
        intro j
        rw [List.getElem?_set]
        by_cases hij : i = j
        · subst hij
          have hlt := lt_of_get hi2
          rw [if_pos rfl, if_pos (by rw [List.length_map]; exact hlt), List.getElem?_map, hi2]
          unfold attached
          rw [Option.map_some, if_pos ⟨rfl, (root_mem_Cn hS hb).1 hmem⟩, rowsOf_eq hS.n62]
        · rw [if_neg hij, List.getElem?_map, List.getElem?_map]
          cases hj : (treeRows K.n 64)[j]? with
          | none => rfl
          | some t' =>
            have hne : t' ≠ t := by
              rintro rfl
              obtain ⟨b1, c1⟩ := List.getElem?_eq_some_iff.1 hi2
              obtain ⟨b2, c2⟩ := List.getElem?_eq_some_iff.1 hj
              exact hij ((List.Nodup.getElem_inj_iff hnd).1 (c1.trans c2.symm))
            rw [Option.map_some, Option.map_some]
            unfold attached
            rw [if_neg (fun hc => hne hc.1)]
      · rw [if_neg he] at h
        simp only [pure_ok, Except.ok.injEq, Prod.mk.injEq] at h
        obtain ⟨rfl, -⟩ := h
        apply same
        rintro ⟨hb, hmem⟩
        have := head hb hmem
        rw [hc] at this
        exact he (by simpa using this)
    · simp only [Bool.not_eq_true] at hb
      rw [hb] at h
      simp only [Bool.false_eq_true, if_false, pure_ok, Except.ok.injEq, Prod.mk.injEq] at h
      obtain ⟨rfl, -⟩ := h
      apply same
      rw [hb]; simp

/-- The local state of a step. -/
def stepCpt : Step (CPT H × List ℕ) → CPT H
  | .cont a => a.1
  | .fail a => a.1

theorem cptNode_roots (n : ℕ) (c : CPT H) (next : List ℕ) (id : ℕ) :
    After (cptNode n c next id) fun r => (stepCpt r).roots = c.roots := by
  unfold cptNode
  refine After.seq fun v => ?_
  dsimp only
  refine After.seq fun _ => After.seq fun _ => ?_
  split
  · split
    · exact After.pure rfl
    · exact After.seq fun _ => After.pure rfl
  · split
    · refine After.seq fun x => ?_
      split
      · split
        · exact After.error
        · exact After.pure rfl
      · split
        · exact After.pure rfl
        · exact After.pure rfl
    · split
      · exact After.pure rfl
      · exact After.seq fun _ => After.seq fun _ => After.pure rfl

theorem cptRow_roots (n : ℕ) : ∀ (ids : List ℕ) (c : CPT H) (next : List ℕ),
    After (cptRow n ids c next) fun r => (stepCpt r).roots = c.roots := by
  intro ids
  induction ids with
  | nil => intro c next; exact After.ok rfl
  | cons id ids ih =>
    intro c next
    rw [cptRow]
    refine After.bind (cptNode_roots n c next id) fun r hr => ?_
    cases r with
    | fail x => exact After.pure hr
    | cont x =>
      obtain ⟨c', next'⟩ := x
      have hr' : c'.roots = c.roots := hr
      rw [← hr']
      exact ih c' next'

/-- The marks after the rows up to `k` have been attached. -/
noncomputable def attachedTo (m : Marks) (n : ℕ) (D : List ℕ) (k : ℕ) : Marks := fun h =>
  open Classical in if h ≤ k ∧ ∃ a ∈ D, InTree n h a then rowsOf n else m h

theorem attachedTo_zero (m : Marks) (n : ℕ) (D : List ℕ) : attachedTo m n D 0 = attached m n D 0 := by
  funext h
  unfold attachedTo attached
  by_cases hex : ∃ a ∈ D, InTree n h a
  · by_cases hz : h = 0
    · rw [if_pos ⟨by omega, hex⟩, if_pos ⟨hz, hex⟩]
    · rw [if_neg (fun hc => hz (by omega)), if_neg (fun hc => hz hc.1)]
  · rw [if_neg (fun hc => hex hc.2), if_neg (fun hc => hex hc.2)]

theorem attachedTo_succ (m : Marks) (n : ℕ) (D : List ℕ) (k : ℕ) :
    attachedTo m n D (k + 1) = attachedTo (attached m n D (k + 1)) n D k := by
  funext h
  unfold attachedTo attached
  by_cases h1 : ∃ a ∈ D, InTree n h a
  · by_cases h2 : h ≤ k
    · rw [if_pos ⟨by omega, h1⟩, if_pos ⟨h2, h1⟩]
    · by_cases h3 : h = k + 1
      · rw [if_pos ⟨by omega, h1⟩, if_neg (fun hc => h2 hc.1), if_pos ⟨h3, h1⟩]
      · rw [if_neg (by omega), if_neg (by omega), if_neg (by omega)]
  · rw [if_neg (fun hc => h1 hc.2), if_neg (fun hc => h1 hc.2), if_neg (fun hc => h1 hc.2)]

/-- Some trees with a proven leaf have been numbered again. -/
def Partly (m m' : Marks) (n : ℕ) (D : List ℕ) : Prop := ∀ h, m' h = m h ∨ ((∃ a ∈ D, InTree n h a) ∧ m' h = rowsOf n)

theorem Partly.attached (m : Marks) (n : ℕ) (D : List ℕ) (k : ℕ) : Partly m (Pol.attached m n D k) n D := by
  intro h
  unfold Pol.attached
  split
  · rename_i hc; exact .inr ⟨hc.2, rfl⟩
  · exact .inl rfl

theorem Partly.trans {m m1 m2 : Marks} {n : ℕ} {D : List ℕ} (h1 : Partly m m1 n D) (h2 : Partly m1 m2 n D) : Partly m m2 n D := by
  intro h
  rcases h2 h with e | e
  · rw [e]; exact h1 h
  · exact .inr e

/-- What the rows leave behind. -/
def Left (m : Marks) (n : ℕ) (D : List ℕ) (k : ℕ) : Step (CPT H × List ℕ) → Prop
  | .cont a => RootsShown a.1.roots n (attachedTo m n D k)
  | .fail a => ∃ m', Partly m m' n D ∧ RootsShown a.1.roots n m'

theorem cptRows_places {K : Ctx H} (hK : K.Ok) : ∀ (k : ℕ) (c : CPT H) (cs : List (ℕ × ℕ)) (A1 : Addr) (m : Marks), k ≤ St.numRows K.n →
    CI K c (k + 1) (Cn K.n K.D (k + 1)) cs A1 → Prog K c A1 (k + 1) [] → RootsShown c.roots K.n m →
    After (cptRows K.n (k + 1) c ((kidsL (Cn K.n K.D (k + 1))).map fun y => cs.idxOf (k, y))) (Left m K.n K.D k) := by
  intro k
  induction k with
  | zero =>
    intro c cs A1 m hk I P hm
    obtain ⟨c', cs', w, I2, P2⟩ := attachRoot_ok hK hk I P
    have h1 := attachRoot_places hK.sane hk P.comp hm w
    rw [cptRows, w]
    simp only [ok_bind]
    refine After.bind (cptRow_roots K.n _ c' []) fun r hr => ?_
    cases r with
    | fail x =>
      refine After.pure ⟨_, Partly.attached m K.n K.D 0, ?_⟩
      have hr' : x.1.roots = c'.roots := hr
      rw [hr']; exact h1
    | cont x =>
      obtain ⟨c2, n'⟩ := x
      have hr' : c2.roots = c'.roots := hr
      refine After.ok ?_
      show RootsShown c2.roots K.n _
      rw [hr', attachedTo_zero]; exact h1
  | succ k ih =>
    intro c cs A1 m hk I P hm
    obtain ⟨c', cs', w, I2, P2⟩ := attachRoot_ok hK hk I P
    have h1 := attachRoot_places hK.sane hk P.comp hm w
    rw [cptRows, w]
    simp only [ok_bind]
    rw [← List.map_reverse]
    have h := cptRow_succ hK _ c' [] cs' A1 I2 P2 (by rw [List.pairwise_reverse]; exact Vn_sorted hK.sane _)
      (fun y hy => List.mem_reverse.1 hy) (by simp)
    have hn : ((kidsL []).map fun y => cs'.idxOf (k, y)) = [] := rfl
    rw [hn] at h
    have hroots := cptRow_roots K.n ((Vn K.n K.D (k + 1)).reverse.map fun y => cs'.idxOf (k + 1, y)) c' []
    generalize cptRow K.n ((Vn K.n K.D (k + 1)).reverse.map fun y => cs'.idxOf (k + 1, y)) c' [] = R at h hroots ⊢
    rcases R with e | (⟨c2, n'⟩ | a)
    · exact After.error
    · obtain ⟨cs2, A2, I3, P3, e⟩ := h
      rw [List.filter_reverse, Vn_comp hK.sane, List.reverse_reverse, List.append_nil] at I3 e
      simp only [ok_bind]
      simp only at e I3 P3
      rw [e]
      have hr' : c2.roots = c'.roots := hroots _ rfl
      have := ih c2 cs2 A2 _ (by omega) I3 P3 (by rw [hr']; exact h1)
      intro r hr
      have h2 := this r hr
      cases r with
      | cont x =>
        show RootsShown x.1.roots K.n _
        rw [attachedTo_succ]; exact h2
      | fail x =>
        obtain ⟨m', g1, g2⟩ := h2
        exact ⟨m', (Partly.attached m K.n K.D (k + 1)).trans g1, g2⟩
    · have hr' : a.1.roots = c'.roots := hroots _ rfl
      refine After.ok ⟨_, Partly.attached m K.n K.D (k + 1), ?_⟩
      rw [hr']; exact h1

theorem createProofTree_places {K : Ctx H} {s : Pollard H} {proof : BatchProof H} {m : Marks} (hK : K.Ok) (hn : s.numLeaves = K.n)
    (hh : s.ext = K.heap0) (hr : RootsAt s.roots K.A0 (rootCoords K.n)) (hD : proof.sorted = K.D)
    (hprf : K.prf = proof.hashes.reverse)
    (hon : K.hon → Reads HashOps.zero (planRev K.A0 K.c (Pn K.n K.D) (St.numRows K.n + 1)) K.prf)
    (hm : RootsShown s.roots K.n m) :
    After (createProofTree s proof) fun r => (r.1 = true → RootsShown r.2.1.roots K.n (attachedTo m K.n K.D (St.numRows K.n))) ∧
      ∃ m', Partly m m' K.n K.D ∧ RootsShown r.2.1.roots K.n m' := by
  unfold createProofTree
  simp only [hn, hD, hh]
  rw [proofPositions_rows hK.sane]
  simp only [ok_bind]
  rw [posRev_eq, posRev_eq]
  have hC := Cn_top hK.sane (k := St.numRows K.n + 1) (by omega)
  have hV : ∀ r x, St.numRows K.n + 1 ≤ r → x ∉ Vn K.n K.D r := by
    intro r x hr hx
    have := (row_le hK.sane.n62 (Vn_in hK.sane hx)).1
    omega
  have I : CI K (CPT.mk K.heap0 s.roots [] [] proof.hashes.reverse
      (posRev (St.numRows K.n) (Pn K.n K.D) (St.numRows K.n + 1)) (posRev (St.numRows K.n) (Cn K.n K.D) (St.numRows K.n + 1)))
      (St.numRows K.n + 1) (Cn K.n K.D (St.numRows K.n + 1)) [] K.A0 := by
    refine ⟨hK.shape, fun _ _ _ h => h, fun r x p h h0 => ?_, fun _ _ => rfl, le_rfl, rfl, List.nodup_nil, ?_, ?_, fun _ h => h, ?_, ?_, hr, fun _ _ _ => rfl, fun _ _ h h0 => by rw [h0] at h; simp at h⟩
    · rw [h0] at h; simp at h
    · intro r x
      rw [hC]
      simp only [List.not_mem_nil, and_false, or_false, false_iff, not_and]
      exact fun h => hV r x h
    · intro r x h; simp at h
    · intro r x
      simp only [List.not_mem_nil, false_and, exists_false, iff_false, not_and]
      intro h; rw [h]; simp
    · intro e h; simp at h
  have P : Prog K (CPT.mk K.heap0 s.roots [] [] proof.hashes.reverse
      (posRev (St.numRows K.n) (Pn K.n K.D) (St.numRows K.n + 1)) (posRev (St.numRows K.n) (Cn K.n K.D) (St.numRows K.n + 1)))
      K.A0 (St.numRows K.n + 1) [] := by
    refine ⟨rfl, rfl, ?_, ?_, fun v _ hr => by rw [hprf]; exact hr⟩
    · intro h
      show Reads _ _ proof.hashes.reverse
      rw [← hprf]; exact hon h
    · intro h r x p hx ho _
      exfalso
      have := (row_le hK.sane.n62 (Pn_in hK.sane hx)).1
      omega
  have h := cptRows_places hK (St.numRows K.n) _ [] K.A0 m le_rfl I P hm
  have hn : ((kidsL (Cn K.n K.D (St.numRows K.n + 1))).map fun y => ([] : List (ℕ × ℕ)).idxOf (St.numRows K.n, y)) = [] := by rw [hC]; rfl
  rw [hn] at h
  refine After.bind h fun r hr => ?_
  cases r with
  | fail x =>
    refine After.pure ⟨fun hc => ?_, hr⟩
    simp at hc
  | cont x =>
    refine After.pure ⟨fun _ => hr, _, ?_, hr⟩
    intro h
    unfold attachedTo
    split
    · rename_i hc; exact .inr ⟨hc.2, rfl⟩
    · exact .inl rfl

/-- `Verify` numbers the trees with a proven leaf again. -/
theorem verify_shown {s s' : Pollard H} {n : ℕ} {f : ℕ → H} {A : Addr} {m : Marks} {b : Bool} (h : Inv s n f A) (hn62 : n ≤ 2 ^ 62)
    {proof : BatchProof H} {hs : List H} (hm : Acc.ShownAs vt s m) (hv : verify s proof hs = .ok (b, s')) :
    s'.numLeaves = n ∧ (∃ m', Partly m m' n proof.sorted ∧ Acc.ShownAs vt s' m') ∧
      (b = true → proof.targets = [] ∧ s' = s ∨ proof.targets ≠ [] ∧ Acc.ShownAs vt s' (m.proved n proof.sorted)) := by
  have kept : ∀ b', s' = s → (b' = true → proof.targets = []) → s'.numLeaves = n ∧ (∃ m', Partly m m' n proof.sorted ∧ Acc.ShownAs vt s' m') ∧
      (b' = true → proof.targets = [] ∧ s' = s ∨ proof.targets ≠ [] ∧ Acc.ShownAs vt s' (m.proved n proof.sorted)) := by
    rintro b' rfl hb
    exact ⟨h.ph.num, ⟨m, fun _ => .inl rfl, hm⟩, fun hb' => .inl ⟨hb hb', rfl⟩⟩
  unfold verify at hv
  by_cases hl : hs.length ≠ proof.targets.length
  · rw [if_pos hl] at hv
    simp only [Except.ok.injEq, Prod.mk.injEq] at hv
    exact kept b hv.2.symm (by rw [← hv.1]; simp)
  rw [if_neg hl] at hv
  obtain ⟨ok, e, hb⟩ := checkSanity_ok (H := H) hn62 proof
  rw [h.ph.num, e, ok_bind] at hv
  cases ok with
  | false =>
    simp only [Bool.not_false, if_true, pure_ok, Except.ok.injEq, Prod.mk.injEq] at hv
    exact kept b hv.2.symm (by rw [← hv.1]; simp)
  | true =>
    have hS := (hb.1 rfl).1
    simp only [Bool.not_true, Bool.false_eq_true, if_false] at hv
    by_cases ht : proof.targets.length = 0
    · rw [if_pos ht] at hv
      simp only [pure_ok, Except.ok.injEq, Prod.mk.injEq] at hv
      exact kept b hv.2.symm (fun _ => List.length_eq_zero_iff.1 ht)
    rw [if_neg ht] at hv
    have hne : proof.targets ≠ [] := fun e => ht (by rw [e]; rfl)
    have hK : (ctxOf s n f A proof hs).Ok := ⟨hS, h.ph.shape, h.ph.hashed, h.out, fun r x => mt_succ f r x⟩
    obtain ⟨⟨cok, c, tree⟩, e1, hv⟩ := bind_eq_ok.1 hv
    have hm' : RootsShown s.roots n m := by
      unfold Acc.ShownAs at hm
      rw [h.ph.num] at hm
      exact hm
    obtain ⟨g1, m', g2, g3⟩ := createProofTree_places (K := ctxOf s n f A proof hs) (s := s) (proof := proof) hK h.ph.num rfl h.ph.roots rfl
      rfl (fun hh => hh.2) hm' _ e1
    simp only at hv g1 g3
    -- the roots of the result
    have done : ∀ (posmap : PosMap H) (heap : List (INode H)) (b' : Bool), (b' = true → cok = true) →
        (Acc.mk n c.roots posmap heap : Pollard H).numLeaves = n ∧
        (∃ m', Partly m m' n proof.sorted ∧ Acc.ShownAs vt (Acc.mk n c.roots posmap heap : Pollard H) m') ∧
        (b' = true → proof.targets = [] ∧ (Acc.mk n c.roots posmap heap : Pollard H) = s ∨
          proof.targets ≠ [] ∧ Acc.ShownAs vt (Acc.mk n c.roots posmap heap : Pollard H) (m.proved n proof.sorted)) := by
      intro posmap heap b' hc
      refine ⟨rfl, ⟨m', g2, g3⟩, fun hb' => .inr ⟨hne, ?_⟩⟩
      have := g1 (hc hb')
      show RootsShown c.roots n _
      unfold RootsShown at this ⊢
      rw [this]
      apply shown_congr
      intro t ht
      unfold attachedTo Marks.proved
      have hin := (row_le hn62 (Ram.root_in (mem_treeRows.1 ht).2)).1
      by_cases hex : ∃ a ∈ proof.sorted, InTree n t a
      · rw [if_pos hex]
        exact if_pos ⟨hin, hex⟩
      · rw [if_neg hex]
        exact if_neg (fun hc => hex hc.2)
    cases cok with
    | false =>
      simp only [Bool.false_eq_true, if_false, pure_ok, ok_bind, Bool.not_false, if_true] at hv
      obtain ⟨heap, -, hv⟩ := bind_eq_ok.1 hv
      simp only [pure_ok, Except.ok.injEq, Prod.mk.injEq] at hv
      obtain ⟨rfl, rfl⟩ := hv
      exact done _ _ false (by simp)
    | true =>
      simp only [if_true] at hv
      obtain ⟨⟨ok, t⟩, -, hv⟩ := bind_eq_ok.1 hv
      cases ok with
      | false =>
        simp only [Bool.not_false, if_true] at hv
        obtain ⟨heap, -, hv⟩ := bind_eq_ok.1 hv
        simp only [pure_ok, Except.ok.injEq, Prod.mk.injEq] at hv
        obtain ⟨rfl, rfl⟩ := hv
        exact done _ _ false (by simp)
      | true =>
        simp only [Bool.not_true, Bool.false_eq_true, if_false] at hv
        obtain ⟨pm, -, hv⟩ := bind_eq_ok.1 hv
        simp only [pure_ok, Except.ok.injEq, Prod.mk.injEq] at hv
        obtain ⟨rfl, rfl⟩ := hv
        exact done _ _ true (fun _ => rfl)

end Pol
end Utreexo
