import Verif.Props.Later
import Verif.Props.Order
import Verif.Props.Work
import Verif.Props.Copy
import Verif.Props.Kept
import Verif.Proof.TailCopy

/-!
# C82: deleting the newest leaves

If the targets are the positions from `m` on then the forest ends up with its first `m` leaves in their order, as it would be had the others
never been added, and `Modify` moves and rehashes nothing. For a pollard that has verified the leaves the same holds; for one that
has not, the condition is exact (C53). Copies of a pollard notice nothing if whole trees are deleted from the end (C62).
-/

set_option linter.unusedSectionVars false

namespace Utreexo
open Spec Equiv

variable {H : Type} [DecidableEq H] [HashOps H]

/-! ## The forest -/

/-- C82: the rule of `Modify` for the newest leaves is to cut them off. -/
theorem C82_rule (L : List H) (m : ℕ) (hm : m ≤ L.length) (hl : L.length ≤ 2 ^ 62) :
    deleteLeaves L (List.range' m (L.length - m)) = L.take m := by
  have hL : L = (List.range L.length).map (leafFn HashOps.zero L) := by
    apply List.ext_getElem
    · simp
    · intro i h1 h2
      simp only [List.getElem_map, List.getElem_range, leafFn]
      rw [List.getD_eq_getElem?_getD, List.getElem?_eq_getElem h1]; rfl
  have hR : L.length ≤ 2 ^ St.numRows L.length := le_two_pow_numRows (by omega)
  have h1 := Settle.deleteLeaves_eq (D := List.range' m (L.length - m)) (n := L.length) List.pairwise_lt_range'
    (fun i hi => by rw [List.mem_range'_1] at hi; omega) hR (n' := m) (by rw [List.length_range']; omega) (leafFn HashOps.zero L)
  rw [(Tail.plan hm hR (St.numRows L.length) 0 rfl).1, ← hL] at h1
  rw [h1]
  apply List.ext_getElem
  · simp [hm]
  · intro i h1 h2
    simp only [List.length_map, List.length_range] at h1
    simp only [List.getElem_map, List.getElem_range, List.getElem_take]
    show leafFn HashOps.zero L i = _
    unfold leafFn
    rw [List.getD_eq_getElem?_getD, List.getElem?_eq_getElem (by omega)]; rfl

/-- C82: `Modify` with the newest leaves as targets leaves the older ones in their order, followed by the additions. -/
theorem C82_forest (s : RamForest H) (st : List (UndoBatch H × RamForest H)) (h : Ram.Run s st) (L : List H)
    (hL : Ram.Represents s L) (leaves : List (Leaf H)) (m : ℕ) (hm : m ≤ L.length)
    (hv : Ram.Valid L (leaves.map Prod.fst) (List.range' m (L.length - m))) :
    ∃ u s', Ram.modify s leaves (List.range' m (L.length - m)) = .ok (true, some u, s') ∧ Ram.Run s' ((u, s) :: st) ∧
      Ram.Represents s' (L.take m ++ leaves.map Prod.fst) := by
  obtain ⟨L0, hL0, -, hlen⟩ := C16_represents s st h
  obtain rfl := hL.unique hL0
  have := C56_order s st h L hL leaves _ hv
  rw [C82_rule L m hm hlen] at this
  exact this

/-- C82: a block of additions is taken back by deleting the leaves it added: nothing a caller sees tells the forest from the one before. -/
theorem C82_back (s : RamForest H) (st : List (UndoBatch H × RamForest H)) (h : Ram.Run s st) (L : List H) (hL : Ram.Represents s L)
    (leaves : List (Leaf H)) (hd : (leaves.map Prod.fst).Nodup) (hf : ∀ x ∈ L, x ∉ leaves.map Prod.fst)
    (hn : L.length + leaves.length < 2 ^ 32) :
    ∃ u1 s1 u2 s2, Ram.modify s leaves [] = .ok (true, some u1, s1) ∧
      Ram.modify s1 [] (List.range' L.length leaves.length) = .ok (true, some u2, s2) ∧
      Ram.Run s2 ((u2, s1) :: (u1, s) :: st) ∧ Ram.Represents s2 L ∧ Ram.roots s2 = Ram.roots s := by
  have hs0 : ∀ L : List H, survivors L [] = L := by
    intro L
    unfold survivors
    simp
  have hv : Ram.Valid L (leaves.map Prod.fst) [] := by
    refine ⟨by simp, by simp, hd, ?_, fun h => absurd rfl h, ?_⟩
    · rw [hs0]; exact hf
    · simp only [List.length_nil, List.length_map]; omega
  obtain ⟨u1, s1, e1, e2, e3⟩ := C56_order s st h L hL leaves [] hv
  rw [C56_nothing L (by omega)] at e3
  have hlen : (L ++ leaves.map Prod.fst).length = L.length + leaves.length := by simp
  have hr : List.range' L.length leaves.length = List.range' L.length ((L ++ leaves.map Prod.fst).length - L.length) := by
    rw [hlen, Nat.add_sub_cancel_left]
  have hv2 : Ram.Valid (L ++ leaves.map Prod.fst) (([] : List (Leaf H)).map Prod.fst) (List.range' L.length leaves.length) := by
    refine ⟨List.pairwise_lt_range', ?_, by simp, by simp, fun _ => by rw [hlen]; exact hn, ?_⟩
    · intro t ht
      rw [List.mem_range'_1] at ht
      omega
    · simp only [hlen, List.length_range', List.map_nil, List.length_nil]; omega
  rw [hr] at hv2
  obtain ⟨u2, s2, g1, g2, g3⟩ := C82_forest s1 _ e2 _ e3 [] L.length (by omega) hv2
  rw [List.take_left', List.map_nil, List.append_nil] at g3
  · exact ⟨u1, s1, u2, s2, e1, by rw [hr]; exact g1, g2, g3, by rw [g3.roots, hL.roots]⟩
  · rfl

/-! ## The cost -/

/-- C82: deleting the newest leaves of a forest moves no subtree and computes no parent hash: the only ones computed are those of the
trees that the additions complete. -/
theorem C82_cost (F F' : RamForest H) (leaves : List (Leaf H)) (m : ℕ) (u : Option (UndoBatch H)) (hn : F.numLeaves ≤ 2 ^ 62)
    (hm : m ≤ F.numLeaves) (ht : m + leaves.length ≤ 2 ^ 62)
    (h : Ram.modify F leaves (List.range' m (F.numLeaves - m)) = .ok (true, u, F')) :
    ∃ w, Ram.modifyC (F.withWork {}) leaves (List.range' m (F.numLeaves - m)) = .ok (true, u, F'.withWork w) ∧
      w.swaps = 0 ∧ w.rehashes = 0 ∧ w.leaves = leaves.length ∧ w.hashes + treesOf (m + leaves.length) = treesOf m + leaves.length := by
  have hl : F.numLeaves - (List.range' m (F.numLeaves - m)).length = m := by rw [List.length_range']; omega
  obtain ⟨a, h1, w, rfl, h2⟩ := (Ram.modify_work F {} leaves (List.range' m (F.numLeaves - m)) hn (by rw [hl]; exact ht)).left h
  obtain ⟨h3, h4⟩ := (h2 rfl).tail m hm rfl
  have h5 := Spent.of hn (by rw [hl]; exact ht) (h2 rfl)
  have h6 := h5.merges
  rw [hl] at h6
  refine ⟨w, h1, h3, h4, h5.leaves, ?_⟩
  unfold Work.hashes
  rw [h4]
  exact h6

/-- C82: the same for a pollard. -/
theorem C82_cost_pollard (p p' : Pollard H) (leaves : List (Leaf H)) (m : ℕ) (hn : p.numLeaves ≤ 2 ^ 62)
    (hm : m ≤ p.numLeaves) (ht : m + leaves.length ≤ 2 ^ 62)
    (h : Pol.modify p leaves (List.range' m (p.numLeaves - m)) = .ok (true, p')) :
    ∃ w, Pol.modifyC (p.withWork {}) leaves (List.range' m (p.numLeaves - m)) = .ok (true, p'.withWork w) ∧
      w.swaps = 0 ∧ w.rehashes = 0 ∧ w.leaves = leaves.length ∧ w.hashes + treesOf (m + leaves.length) = treesOf m + leaves.length := by
  have hl : p.numLeaves - (List.range' m (p.numLeaves - m)).length = m := by rw [List.length_range']; omega
  obtain ⟨a, h1, w, rfl, -, h2⟩ := (Pol.modify_work p {} leaves (List.range' m (p.numLeaves - m)) hn (by rw [hl]; exact ht)).left h
  obtain ⟨h3, h4⟩ := (h2 rfl).tail m hm rfl
  have h5 := Spent.of hn (by rw [hl]; exact ht) (h2 rfl)
  have h6 := h5.merges
  rw [hl] at h6
  refine ⟨w, h1, h3, h4, h5.leaves, ?_⟩
  unfold Work.hashes
  rw [h4]
  exact h6

/-! ## Pollards -/

open Pol

/-- C82: a pollard that has verified the newest leaves deletes them like the forest: it has the roots of the older leaves and the
additions. -/
theorem C82_pollard (F : RamForest H) (st : List (UndoBatch H × RamForest H)) (p p1 : Pollard H) (h : Sync F st p) (L : List H)
    (hL : Ram.Represents F L) (V : H → Prop) (hV : Verifies L p V p1) (leaves leaves' : List (Leaf H)) (m : ℕ) (hm : m ≤ L.length)
    (hv : Ram.Valid L (leaves.map Prod.fst) (List.range' m (L.length - m))) (hl : leaves'.map Prod.fst = leaves.map Prod.fst)
    (hd : ∀ x ∈ L.drop m, V x) :
    ∃ u F' p2, Ram.modify F leaves (List.range' m (L.length - m)) = .ok (true, some u, F') ∧
      Pol.modify p1 leaves' (List.range' m (L.length - m)) = .ok (true, p2) ∧ Sync F' ((u, F) :: st) p2 ∧
      p2.numLeaves = m + leaves.length ∧
      Pol.roots p2 = .ok (merkleRoots HashOps.ph (leafFn HashOps.zero (L.take m ++ leaves.map Prod.fst)) (m + leaves.length)) := by
  obtain ⟨L0, A, hI⟩ := h.inv
  obtain rfl := hL.unique hI.rep
  obtain ⟨u, F', p2, rs, k1, k2, k3, k4, k5, k6⟩ := C52_modify F st p p1 h L hL V hV leaves leaves' _ hv hl (by
    intro t ht
    rw [List.mem_range'_1] at ht
    have htl : t < L.length := by omega
    refine ⟨L[t], List.getElem?_eq_getElem htl, hd _ ?_⟩
    rw [List.mem_iff_getElem?]
    exact ⟨t - m, by rw [List.getElem?_drop, show m + (t - m) = t by omega, List.getElem?_eq_getElem htl]⟩)
  obtain ⟨u', s', g1, -, g3⟩ := C82_forest F st hI.run L hL leaves m hm hv
  rw [k1] at g1
  simp only [Except.ok.injEq, Prod.mk.injEq, Option.some.injEq, true_and] at g1
  obtain ⟨-, rfl⟩ := g1
  have hlen : (L.take m ++ leaves.map Prod.fst).length = m + leaves.length := by
    rw [List.length_append, List.length_take, List.length_map, Nat.min_eq_left hm]
  refine ⟨u, F', p2, k1, k2, k3, by rw [k6, g3.count, hlen], ?_⟩
  have := g3.roots
  rw [hlen, k4] at this
  rw [k5]
  exact this

/-- C53, exactly for the newest leaves, verified or not, remembered or not: if `Read` finds the roots of the older leaves then `Modify`
follows the forest and remembers what it should; if not then it has undefined behaviour, namely it writes through a null
pointer. The forest deletes the leaves in both cases. -/
theorem C53_tail_exact (F : RamForest H) (st : List (UndoBatch H × RamForest H)) (p : Pollard H) (Q : H → Prop)
    (h : Held F st p Q) (L : List H) (hL : Ram.Represents F L) (leaves leaves' : List (Leaf H)) (m : ℕ) (hm : m < L.length)
    (hv : Ram.Valid L (leaves.map Prod.fst) (List.range' m (L.length - m))) (hl : leaves'.map Prod.fst = leaves.map Prod.fst) :
    ((∀ t, m.testBit t = true → Pol.read p (Pol.at' L t (rootIdx m t)) ≠ .ok none) →
      ∃ u F' p' rs, Ram.modify F leaves (List.range' m (L.length - m)) = .ok (true, some u, F') ∧
        Pol.modify p leaves' (List.range' m (L.length - m)) = .ok (true, p') ∧
        Ram.Represents F' (L.take m ++ leaves.map Prod.fst) ∧
        p'.numLeaves = F'.numLeaves ∧ Ram.roots F' = .ok rs ∧ Pol.roots p' = .ok rs ∧
        ∀ S : List H, S.Nodup → (∀ x, x ∈ S ↔ (Q x ∧ x ∈ L.take m) ∨ (x, true) ∈ leaves') → numCachedLeaves p' = S.length) ∧
    (∀ t, m.testBit t = true → Pol.read p (Pol.at' L t (rootIdx m t)) = .ok none →
      (∃ u F', Ram.modify F leaves (List.range' m (L.length - m)) = .ok (true, some u, F')) ∧
        Pol.modify p leaves' (List.range' m (L.length - m)) = .error .ub) := by
  obtain ⟨L0, A, hI⟩ := h.inv
  obtain rfl := hL.unique hI.sync.rep
  have hn := hI.sync.len
  have hDl : L.length - (List.range' m (L.length - m)).length = m := by rw [List.length_range']; omega
  obtain ⟨uf, sf, f1, -, f3⟩ := C82_forest F st hI.sync.run L hL leaves m hm.le hv
  have hrd : ∀ t, m.testBit t = true →
      Pol.read p (Pol.at' L t (rootIdx m t)) = .ok ((A t (rootIdx m t)).map fun _ => node L t (rootIdx m t)) := fun t ht =>
    hI.sync.inv.read_at hn (lt_of_lt_of_le (Ram.root_in ht) (Nat.div_le_div_right hm.le))
  constructor
  · intro hR
    have hnew : ∀ q, m.testBit q = true → (A q (rootIdx m q)).isSome := by
      intro q hq
      have h1 := hR q hq
      rw [hrd q hq] at h1
      cases hc : A q (rootIdx m q) with
      | none => rw [hc] at h1; simp at h1
      | some w => rfl
    obtain ⟨p1, r1, r2, r3⟩ := remove_tail_ok hI.sync.inv hn hm hnew
    have hone := (Tail.plan (n := L.length) hm.le (R := St.numRows L.length) (le_two_pow_numRows (by omega)) (St.numRows L.length) 0 rfl).1
    obtain ⟨u, F', p', L', A', k1, k2, -, k4⟩ := hI.removed hv hl ⟨p1, cut m A, r1, by rw [hDl, hone]; exact r2, by rw [hDl, hone]; exact r3⟩
    rw [k1] at f1
    simp only [Except.ok.injEq, Prod.mk.injEq, Option.some.injEq, true_and] at f1
    obtain ⟨-, rfl⟩ := f1
    refine ⟨u, F', p', _, k1, k2, f3, by rw [k4.sync.inv.ph.num, k4.sync.rep.count], k4.sync.rep.roots, k4.sync.inv.roots_ok, ?_⟩
    intro S hS1 hS2
    refine k4.count S hS1 fun x => (hS2 x).trans ?_
    have hmem := (C56_survivors L (List.range' m (L.length - m)) hv.sorted hv.bound hn).mem_iff (a := x)
    rw [C82_rule L m hm.le hn] at hmem
    rw [hmem]
  · intro t ht hno
    refine ⟨⟨_, _, f1⟩, ?_⟩
    rw [hrd t ht] at hno
    have hA : A t (rootIdx m t) = none := by
      cases hc : A t (rootIdx m t) with
      | none => rfl
      | some w => rw [hc] at hno; simp at hno
    have hub := remove_tail_ub hI.sync.inv hn hm ht hA
    unfold Pol.modify Acc.modify
    rw [hub]
    rfl

/-- C53: a pollard may delete any number of whole trees from the end without having seen the leaves. -/
theorem C53_tail_trees (F : RamForest H) (st : List (UndoBatch H × RamForest H)) (p : Pollard H) (Q : H → Prop)
    (h : Held F st p Q) (L : List H) (hL : Ram.Represents F L) (leaves leaves' : List (Leaf H)) (m t : ℕ) (hm : m < L.length)
    (hd : 2 ^ t ∣ m) (hlt : L.length < m + 2 ^ t)
    (hv : Ram.Valid L (leaves.map Prod.fst) (List.range' m (L.length - m))) (hl : leaves'.map Prod.fst = leaves.map Prod.fst) :
    ∃ u F' p' rs, Ram.modify F leaves (List.range' m (L.length - m)) = .ok (true, some u, F') ∧
        Pol.modify p leaves' (List.range' m (L.length - m)) = .ok (true, p') ∧
        Ram.Represents F' (L.take m ++ leaves.map Prod.fst) ∧
        p'.numLeaves = F'.numLeaves ∧ Ram.roots F' = .ok rs ∧ Pol.roots p' = .ok rs ∧
        ∀ S : List H, S.Nodup → (∀ x, x ∈ S ↔ (Q x ∧ x ∈ L.take m) ∨ (x, true) ∈ leaves') → numCachedLeaves p' = S.length := by
  obtain ⟨L0, A, hI⟩ := h.inv
  obtain rfl := hL.unique hI.sync.rep
  refine (C53_tail_exact F st p Q h L hL leaves leaves' m hm hv hl).1 ?_
  intro q hq
  obtain ⟨g1, g2⟩ := Tail.trees hd hm.le hlt hq
  rw [hI.sync.inv.read_at hI.sync.len (lt_of_lt_of_le (Ram.root_in hq) (Nat.div_le_div_right hm.le))]
  obtain ⟨w, hw⟩ := Option.isSome_iff_exists.1 (hI.sync.inv.ph.shape.root q (rootIdx m q) (rtOf_true.2 ⟨g1, g2.symm⟩))
  rw [hw]
  simp

/-- C53: the newest leaves can be deleted without proofs if the pollard remembers the oldest of them. -/
theorem C53_tail_first (F : RamForest H) (st : List (UndoBatch H × RamForest H)) (p : Pollard H) (Q : H → Prop)
    (h : Held F st p Q) (L : List H) (hL : Ram.Represents F L) (leaves leaves' : List (Leaf H)) (m : ℕ)
    (hQ : ∃ a, L[m]? = some a ∧ Q a)
    (hv : Ram.Valid L (leaves.map Prod.fst) (List.range' m (L.length - m))) (hl : leaves'.map Prod.fst = leaves.map Prod.fst) :
    ∃ u F' p' rs, Ram.modify F leaves (List.range' m (L.length - m)) = .ok (true, some u, F') ∧
        Pol.modify p leaves' (List.range' m (L.length - m)) = .ok (true, p') ∧
        Ram.Represents F' (L.take m ++ leaves.map Prod.fst) ∧
        p'.numLeaves = F'.numLeaves ∧ Ram.roots F' = .ok rs ∧ Pol.roots p' = .ok rs ∧
        ∀ S : List H, S.Nodup → (∀ x, x ∈ S ↔ (Q x ∧ x ∈ L.take m) ∨ (x, true) ∈ leaves') → numCachedLeaves p' = S.length := by
  obtain ⟨L0, A, hI⟩ := h.inv
  obtain rfl := hL.unique hI.sync.rep
  obtain ⟨a, ha, hQa⟩ := hQ
  have hm : m < L.length := (List.getElem?_eq_some_iff.1 ha).1
  have hflag := (hI.flag m a ha).2 hQa
  refine (C53_tail_exact F st p Q h L hL leaves leaves' m hm hv hl).1 ?_
  intro q hq
  have hin : rootIdx m q < L.length / 2 ^ q := lt_of_lt_of_le (Ram.root_in hq) (Nat.div_le_div_right hm.le)
  have hodd : m / 2 ^ q % 2 = 1 := by
    rw [Nat.testBit_eq_decide_div_mod_eq] at hq
    simpa using hq
  have hr : rootIdx m q + 1 = m / 2 ^ q := by
    unfold rootIdx
    rw [pow_succ, ← Nat.div_div_eq_div_mul]
    omega
  have hs : (m / 2 ^ q) ^^^ 1 = rootIdx m q := by rw [Tail.xor_one_odd hodd]; omega
  have hA : (A q (rootIdx m q)).isSome := by
    by_cases hroot : rtOf L.length q (rootIdx m q) = true
    · exact hI.sync.inv.ph.shape.root _ _ hroot
    · have hpar : rootIdx m q / 2 < L.length / 2 ^ (q + 1) := by
        by_contra hc
        exact hroot ((rtOf_iff hin).2 hc)
      have hiq : m / 2 ^ q < L.length / 2 ^ q := by
        rw [pow_succ, ← Nat.div_div_eq_div_mul] at hpar
        omega
      have hnr : rtOf L.length q (m / 2 ^ q) ≠ true := by
        rw [Ne, rtOf_iff hiq, not_not]
        rw [show m / 2 ^ q / 2 = rootIdx m q / 2 by omega]
        exact hpar
      obtain ⟨w, hw, -⟩ := hflag.holder
      have h1 := hI.sync.inv.ph.shape.holders (r := 0) (i := m) (by rw [hw]; rfl) q (by rw [zero_add]; exact hiq)
      rw [zero_add] at h1
      unfold holder at h1
      rw [if_neg hnr, hs, if_neg hroot] at h1
      exact h1
  rw [hI.sync.inv.read_at hI.sync.len hin]
  obtain ⟨w, hw⟩ := Option.isSome_iff_exists.1 hA
  rw [hw]
  simp

/-- C53 for the newest leaves of a pollard with a tidy history, exactly and in terms of the leaves remembered. A tree of the forest
that remains either is there already or is the left half of a tree or subtree, whose right half then has to hold a remembered leaf
(for a tree of one leaf, `Read` has to find it). -/
theorem C53_tail_tidy (F : RamForest H) (st st' : List (UndoBatch H × RamForest H)) (p : Pollard H) (Q : H → Prop)
    (h : Held F st p Q) (hT : Tidy F st' p) (L : List H) (hL : Ram.Represents F L) (leaves leaves' : List (Leaf H)) (m : ℕ) (hm : m < L.length)
    (hv : Ram.Valid L (leaves.map Prod.fst) (List.range' m (L.length - m))) (hl : leaves'.map Prod.fst = leaves.map Prod.fst) :
    ((m % 2 = 1 → Pol.read p (m - 1) ≠ .ok none) →
      (∀ t, 0 < t → m.testBit t = true → InForest L.length (t + 1) (m / 2 ^ (t + 1)) →
        ∃ (s : ℕ) (b : H), L[s]? = some b ∧ Q b ∧ s / 2 ^ t = m / 2 ^ t) →
      ∃ u F' p' rs, Ram.modify F leaves (List.range' m (L.length - m)) = .ok (true, some u, F') ∧
        Pol.modify p leaves' (List.range' m (L.length - m)) = .ok (true, p') ∧
        Ram.Represents F' (L.take m ++ leaves.map Prod.fst) ∧
        p'.numLeaves = F'.numLeaves ∧ Ram.roots F' = .ok rs ∧ Pol.roots p' = .ok rs ∧
        ∀ S : List H, S.Nodup → (∀ x, x ∈ S ↔ (Q x ∧ x ∈ L.take m) ∨ (x, true) ∈ leaves') → numCachedLeaves p' = S.length) ∧
    (¬ ((m % 2 = 1 → Pol.read p (m - 1) ≠ .ok none) ∧
      ∀ t, 0 < t → m.testBit t = true → InForest L.length (t + 1) (m / 2 ^ (t + 1)) →
        ∃ (s : ℕ) (b : H), L[s]? = some b ∧ Q b ∧ s / 2 ^ t = m / 2 ^ t) →
      (∃ u F', Ram.modify F leaves (List.range' m (L.length - m)) = .ok (true, some u, F')) ∧
        Pol.modify p leaves' (List.range' m (L.length - m)) = .error .ub) := by
  obtain ⟨g1, g2⟩ := C53_tail_exact F st p Q h L hL leaves leaves' m hm hv hl
  have e : ∀ t, m.testBit t = true → rootIdx m t + 1 = m / 2 ^ t ∧ rootIdx m t ^^^ 1 = m / 2 ^ t ∧ rootIdx m t / 2 = m / 2 ^ (t + 1) ∧
      InForest L.length t (rootIdx m t) := by
    intro t ht
    have hodd : m / 2 ^ t % 2 = 1 := by
      rw [Nat.testBit_eq_decide_div_mod_eq] at ht
      simpa using ht
    have hr : rootIdx m t + 1 = m / 2 ^ t := by
      unfold rootIdx
      rw [pow_succ, ← Nat.div_div_eq_div_mul]
      omega
    refine ⟨hr, ?_, by unfold rootIdx; omega, inForest_iff.2 (lt_of_lt_of_le (Ram.root_in ht) (Nat.div_le_div_right hm.le))⟩
    have := xor_one_cases (rootIdx m t)
    rw [if_pos (by unfold rootIdx; omega)] at this
    omega
  have key : ∀ t, 0 < t → m.testBit t = true → (Pol.read p (at' L t (rootIdx m t)) = .ok none ↔
      InForest L.length (t + 1) (m / 2 ^ (t + 1)) ∧ ¬ ∃ (s : ℕ) (b : H), L[s]? = some b ∧ Q b ∧ s / 2 ^ t = m / 2 ^ t) := by
    intro t ht hb
    obtain ⟨-, e2, e3, e4⟩ := e t hb
    obtain ⟨k1, k2⟩ := C81_kept F st st' p Q h hT L hL t _ e4
    rw [e2, e3] at k2
    rw [e3] at k1
    constructor
    · intro hno
      have hi : InForest L.length (t + 1) (m / 2 ^ (t + 1)) := by
        by_contra hc
        rw [k1 hc] at hno
        simp at hno
      refine ⟨hi, fun hex => ?_⟩
      rw [(k2 hi).1 hex] at hno
      simp at hno
    · rintro ⟨hi, hex⟩
      refine (k2 hi).2 ?_
      rintro ⟨s, b, q1, q2, q3 | q3⟩
      · exact hex ⟨s, b, q1, q2, q3⟩
      · omega
  have hz : m % 2 = 1 → m.testBit 0 = true ∧ at' L 0 (rootIdx m 0) = m - 1 := by
    intro h1
    have hb : m.testBit 0 = true := by rw [Nat.testBit_eq_decide_div_mod_eq]; simpa using h1
    refine ⟨hb, ?_⟩
    have := (e 0 hb).1
    rw [pow_zero, Nat.div_one] at this
    rw [show rootIdx m 0 = m - 1 by omega]
    unfold at'
    exact posOf_zero _ _
  constructor
  · intro h0 hall
    refine g1 ?_
    intro t hb
    rcases Nat.eq_zero_or_pos t with rfl | ht
    · have h1 : m % 2 = 1 := by rw [Nat.testBit_eq_decide_div_mod_eq] at hb; simpa using hb
      rw [(hz h1).2]
      exact h0 h1
    · rw [Ne, key t ht hb]
      rintro ⟨hi, hex⟩
      exact hex (hall t ht hb hi)
  · intro hno
    by_cases h0 : m % 2 = 1 → Pol.read p (m - 1) ≠ .ok none
    · have : ¬ ∀ t, 0 < t → m.testBit t = true → InForest L.length (t + 1) (m / 2 ^ (t + 1)) →
        ∃ (s : ℕ) (b : H), L[s]? = some b ∧ Q b ∧ s / 2 ^ t = m / 2 ^ t := fun hc => hno ⟨h0, hc⟩
      simp only [not_forall] at this
      obtain ⟨t, ht, hb, hi, hex⟩ := this
      exact g2 t hb ((key t ht hb).2 ⟨hi, hex⟩)
    · simp only [not_forall, ne_eq, not_not] at h0
      obtain ⟨h1, h2⟩ := h0
      refine g2 0 (hz h1).1 ?_
      rw [(hz h1).2]
      exact h2

/-- C62, as far as it holds: whole trees deleted from the end of a pollard leave a copy exactly as it was. Missing: other deletions
(`C62_false`). -/
theorem C62_drop_partial (F : RamForest H) (st : List (UndoBatch H × RamForest H)) (p : Pollard H) (h : Sync F st p) (m t : ℕ)
    (hm : m < p.numLeaves) (hd : 2 ^ t ∣ m) (hlt : p.numLeaves < m + 2 ^ t) :
    ∃ p', modify p [] (List.range' m (p.numLeaves - m)) = .ok (true, p') ∧ p'.numLeaves = m ∧
      copyAfterModify [] (List.range' m (p.numLeaves - m)) p p' = p := by
  obtain ⟨L, A, hI⟩ := h.inv
  have hnum := hI.inv.ph.num
  rw [hnum] at hm hlt ⊢
  have hnew : ∀ q, m.testBit q = true → (A q (rootIdx m q)).isSome := by
    intro q hq
    obtain ⟨g1, g2⟩ := Tail.trees hd hm.le hlt hq
    exact hI.inv.ph.shape.root q (rootIdx m q) (rtOf_true.2 ⟨g1, g2.symm⟩)
  obtain ⟨s', g1, -⟩ := hI.inv.ph.finalizeRemove_ok hI.len hm.le hnew
  have hext := finalizeRemove_same hI.inv.ph hI.len hd hm.le hlt g1
  refine ⟨{ s' with numLeaves := m }, ?_, rfl, ?_⟩
  · unfold Pol.modify Acc.modify
    rw [Tail.remove_eq vt p hnum hI.len hm, show vt.finalizeRemove p m = .ok s' from g1]
    rfl
  · unfold copyAfterModify copyRoots
    rw [if_neg (by simp)]
    show ({ p with roots := p.roots, ext := s'.ext } : Pollard H) = p
    rw [hext]

/-! ## Concrete cases -/

section Examples

attribute [local instance] toyOps

/-- A case of `C82_rule` with leaves in the middle of a tree cut off. -/
example : deleteLeaves [11, 12, 13, 14, 15, 16, 17] (List.range' 3 (7 - 3)) = [11, 12, 13] := by decide +kernel

/-- A case of `C82_back`: four leaves are added to three and deleted again. -/
example : (do
    let (_, _, s) ← Ram.modify (Ram.mk (H := ℕ) 0) [(11, false), (12, false), (13, false)] []
    let (a, _, s1) ← Ram.modify s [(14, false), (15, false), (16, false), (17, false)] []
    let (b, _, s2) ← Ram.modify s1 [] (List.range' 3 4)
    return (a, b, s2.numLeaves, ← Ram.readLeafRange s2 0 3, decide (Ram.roots s2 = Ram.roots s), decide (Ram.roots s1 = Ram.roots s))) =
    .ok (true, true, 3, [11, 12, 13], true, false) := by decide +kernel

/-- A case of `C82_cost`: without the restriction to the newest leaves there are swaps and parent hashes. -/
example : (do
    let (_, _, s) ← Ram.modify (Ram.mk (H := ℕ) 0) ((List.range 7).map fun i => (11 + i, false)) []
    let (_, _, s1) ← Ram.modifyC (s.withWork {}) [(21, false)] (List.range' 3 4)
    let (_, _, s2) ← Ram.modifyC (s.withWork {}) [(21, false)] [0, 1, 2, 4]
    return (s1.ext.2, s2.ext.2)) =
    .ok ({ leaves := 1, merges := 2, swaps := 0, rehashes := 0 }, { leaves := 1, merges := 2, swaps := 3, rehashes := 2 }) := by decide +kernel

/-- C53: the pollard that is given a leaf and then told to delete it need not be able to, though the forest is: the root before has
been merged and dropped. -/
theorem C53_tail_crash : toyAfter [rememberSome 1 [], { adds := [(31, false, false)], dels := [] }] (fun F p => do
      let (b, _, F') ← Ram.modify F [] [1]
      return (b, ← Ram.readLeafRange F' 0 1, ← read p (posOf 1 0 0), (Pol.modify p [] [1]).map Prod.fst)) =
    .ok (true, [11], none, .error .ub) := by decide +kernel

/-- A case of `C53_tail_exact` inside a tree: the pollard remembers the leaf to be deleted, and hence has the roots that remain. -/
example : toyAfter [rememberSome 4 [3]] (fun F p => do
      let (b, _, F') ← Ram.modify F [] [3]
      let (c, p') ← Pol.modify p [] [3]
      return (b, c, decide (Ram.roots F' = Pol.roots p'), numCachedLeaves p')) =
    .ok (true, true, true, 0) := by decide +kernel

/-- Cases of `C53_tail_first` and `C53_tail_tidy`: of eight leaves the last three are deleted. The trees of five leaves are the left
half of everything and the leaf 4. -/
example : toyAfter [rememberSome 8 [5]] (fun F p => do
      let (b, _, F') ← Ram.modify F [] [5, 6, 7]
      let (c, p') ← Pol.modify p [] [5, 6, 7]
      return (b, c, decide (Ram.roots F' = Pol.roots p'))) = .ok (true, true, true) ∧
    toyAfter [rememberSome 8 [4]] (fun _ p => return (← Pol.read p 4, (Pol.modify p [] [5, 6, 7]).map Prod.fst)) = .ok (some 15, .ok true) ∧
    toyAfter [rememberSome 8 [7]] (fun _ p => return (← Pol.read p 4, (Pol.modify p [] [5, 6, 7]).map Prod.fst)) = .ok (none, .error .ub) ∧
    toyAfter [rememberSome 8 [7]] (fun _ p => return ((Pol.modify p [] [6, 7]).map Prod.fst)) = .ok (.ok true) ∧
    toyAfter [rememberSome 8 [3]] (fun _ p => return ((Pol.modify p [] [4, 5, 6, 7]).map Prod.fst)) = .ok (.error .ub) := by
  decide +kernel

/-- A case of `C53_tail_trees` and of `C62_drop_partial`: the last two trees of seven leaves. -/
example : toyAfter [rememberSome 7 [1]] (fun F p => do
      let (b, _, F') ← Ram.modify F [] [4, 5, 6]
      let (c, p') ← Pol.modify p [] [4, 5, 6]
      return (b, c, decide (Ram.roots F' = Pol.roots p'), numCachedLeaves p', decide (copyAfterModify [] [4, 5, 6] p p' = p))) =
    .ok (true, true, true, 1, true) := by decide +kernel

/-- The copy would notice if only a part of a tree were deleted. -/
example : toyAfter [rememberSome 7 [1, 5]] (fun F p => do
      let (b, _, F') ← Ram.modify F [] [5, 6]
      let (c, p') ← Pol.modify p [] [5, 6]
      return (b, c, decide (Ram.roots F' = Pol.roots p'), decide (copyAfterModify [] [5, 6] p p' = p))) =
    .ok (true, true, true, false) := by decide +kernel

end Examples

end Utreexo
