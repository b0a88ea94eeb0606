import Verif.Props.Inner
import Verif.Proof.OneGone
import Mathlib.Order.Interval.Finset.Nat

/-!
# C89: where the leaves are after one is deleted

The rule of C56 goes through all rows. For one deleted leaf there is a short answer: `Spec.withoutOne`. The smallest tree takes the place of
the subtree of its size that has lost the leaf, and what remains of that subtree goes to the end, largest part first. Everything else stays.
-/

set_option linter.unusedSectionVars false

namespace Utreexo
open Spec Equiv Pol

variable {H : Type} [DecidableEq H] [HashOps H]

/-- C89: the rule of C56 for one leaf. `2 ^ k` is the size of the smallest tree. -/
theorem C89_rule {α : Type} (L : List α) (t k : ℕ) (ht : t < L.length) (hk : 2 ^ k ∣ L.length) (hk' : ¬ 2 ^ (k + 1) ∣ L.length) :
    deleteLeaves L [t] = withoutOne L t k :=
  Settle.delete_one L t k ht hk hk'

/-- C89: `Modify` with one deletion and any additions. -/
theorem C89_forest (s : RamForest H) (st : List (UndoBatch H × RamForest H)) (h : Ram.Run s st) (L : List H) (hL : Ram.Represents s L)
    (leaves : List (Leaf H)) (t k : ℕ) (hv : Ram.Valid L (leaves.map Prod.fst) [t]) (hk : 2 ^ k ∣ L.length) (hk' : ¬ 2 ^ (k + 1) ∣ L.length) :
    ∃ u s', Ram.modify s leaves [t] = .ok (true, some u, s') ∧ Ram.Run s' ((u, s) :: st) ∧
      Ram.Represents s' (withoutOne L t k ++ leaves.map Prod.fst) := by
  obtain ⟨u, s', h1, h2, h3⟩ := C56_order s st h L hL leaves [t] hv
  rw [C89_rule L t k (hv.bound t (List.mem_singleton_self t)) hk hk'] at h3
  exact ⟨u, s', h1, h2, h3⟩

/-- C89: leaf by leaf. In front of the smallest tree every leaf stays where it is unless it is below the node of height `k` above the
deleted one. There the leaves of the smallest tree are found, in the same order. -/
theorem C89_places (s : RamForest H) (st : List (UndoBatch H × RamForest H)) (h : Ram.Run s st) (L : List H) (hL : Ram.Represents s L)
    (leaves : List (Leaf H)) (t k : ℕ) (hv : Ram.Valid L (leaves.map Prod.fst) [t]) (hk : 2 ^ k ∣ L.length) (hk' : ¬ 2 ^ (k + 1) ∣ L.length) :
    ∃ u s' L', Ram.modify s leaves [t] = .ok (true, some u, s') ∧ Ram.Represents s' L' ∧ L'.length + 1 = L.length + leaves.length ∧
      ∀ x < L.length - 2 ^ k, L'[x]? = if x / 2 ^ k = t / 2 ^ k then L[L.length - 2 ^ k + x % 2 ^ k]? else L[x]? := by
  have ht := hv.bound t (List.mem_singleton_self t)
  obtain ⟨u, s', h1, -, h3⟩ := C89_forest s st h L hL leaves t k hv hk hk'
  have hlen : (withoutOne L t k).length + 1 = L.length := by
    rw [← C89_rule L t k ht hk hk', Ram.delete_length hv.sorted hv.bound (by have := hv.size (by simp); omega)]
    simp only [List.length_singleton]
    omega
  have hpos : 0 < 2 ^ k := by positivity
  refine ⟨u, s', _, h1, h3, by rw [List.length_append, List.length_map]; omega, fun x hx => ?_⟩
  rw [List.getElem?_append_left (by omega), Settle.withoutOne_get L t k hk x hx]

/-- C89: the new place of every leaf. A leaf `x` that shares the node of height `q + 1` with the deleted leaf and not the one of height `q`,
where `q < k`, goes to `n - 2 ^ (q + 1) + x % 2 ^ q`. The leaves of the smallest tree, if it has not lost the leaf, go to the subtree that
has. The others stay. -/
theorem C89_moved (s : RamForest H) (st : List (UndoBatch H × RamForest H)) (h : Ram.Run s st) (L : List H) (hL : Ram.Represents s L)
    (leaves : List (Leaf H)) (t k : ℕ) (hv : Ram.Valid L (leaves.map Prod.fst) [t]) (hk : 2 ^ k ∣ L.length) (hk' : ¬ 2 ^ (k + 1) ∣ L.length) :
    ∃ u s' L', Ram.modify s leaves [t] = .ok (true, some u, s') ∧ Ram.Represents s' L' ∧ ∀ x < L.length, x ≠ t →
      (x / 2 ^ k = t / 2 ^ k → ∃ q < k, x / 2 ^ (q + 1) = t / 2 ^ (q + 1) ∧ x / 2 ^ q ≠ t / 2 ^ q ∧
        L'[L.length - 2 ^ (q + 1) + x % 2 ^ q]? = L[x]?) ∧
      (x / 2 ^ k ≠ t / 2 ^ k → L.length - 2 ^ k ≤ x → L'[t / 2 ^ k * 2 ^ k + x % 2 ^ k]? = L[x]?) ∧
      (x / 2 ^ k ≠ t / 2 ^ k → x < L.length - 2 ^ k → L'[x]? = L[x]?) := by
  have ht := hv.bound t (List.mem_singleton_self t)
  obtain ⟨u, s', h1, -, h3⟩ := C89_forest s st h L hL leaves t k hv hk hk'
  have hlen : (withoutOne L t k).length + 1 = L.length := by
    rw [← C89_rule L t k ht hk hk', Ram.delete_length hv.sorted hv.bound (by have := hv.size (by simp); omega)]
    simp only [List.length_singleton]
    omega
  have hpos : 0 < 2 ^ k := by positivity
  have hnk : 2 ^ k ≤ L.length := Nat.le_of_dvd (by omega) hk
  refine ⟨u, s', _, h1, h3, fun x hx hxt => ⟨fun e => ?_, fun e hge => ?_, fun e hlt => ?_⟩⟩
  · have hex : ∃ q, x / 2 ^ q = t / 2 ^ q := ⟨k, e⟩
    classical
    obtain ⟨q, hq⟩ : ∃ q, Nat.find hex = q + 1 := by
      refine Nat.exists_eq_succ_of_ne_zero fun h0 => hxt ?_
      have := Nat.find_spec hex
      rw [h0] at this
      simpa using this
    have hqk : q < k := by
      have := Nat.find_min' hex e
      omega
    have e1 : x / 2 ^ (q + 1) = t / 2 ^ (q + 1) := by rw [← hq]; exact Nat.find_spec hex
    have e2 : x / 2 ^ q ≠ t / 2 ^ q := Nat.find_min hex (by omega)
    have hle : 2 ^ (q + 1) ≤ 2 ^ k := Nat.pow_le_pow_right (by omega) hqk
    have h2 : 2 ^ (q + 1) = 2 ^ q + 2 ^ q := by rw [pow_succ]; ring
    have hy : x % 2 ^ q < 2 ^ q := Nat.mod_lt _ (by positivity)
    refine ⟨q, hqk, e1, e2, ?_⟩
    rw [List.getElem?_append_left (by omega), Settle.withoutOne_end L t k ht hk q x hqk e1 e2]
  · have hy : x % 2 ^ k < 2 ^ k := Nat.mod_lt _ hpos
    obtain ⟨c, hc⟩ := hk
    have hlast : L.length - 2 ^ k = 2 ^ k * (c - 1) := by rw [hc, Nat.mul_sub, Nat.mul_one]
    have hxd : x / 2 ^ k = c - 1 := by
      rw [Nat.div_eq_iff hpos]
      rw [hlast] at hge
      rw [Nat.mul_comm]
      omega
    have htd : t / 2 ^ k < c - 1 := by
      have : t / 2 ^ k < c := by rw [Nat.div_lt_iff_lt_mul hpos, Nat.mul_comm, ← hc]; exact ht
      omega
    have hm : t / 2 ^ k * 2 ^ k + 2 ^ k ≤ L.length - 2 ^ k := by
      rw [hlast, Nat.mul_comm, ← Nat.mul_succ]
      exact Nat.mul_le_mul_left _ htd
    rw [List.getElem?_append_left (by omega), Settle.withoutOne_get L t k ⟨c, hc⟩ _ (by omega), if_pos (by
      rw [Nat.mul_comm, Nat.mul_add_div hpos, Nat.div_eq_of_lt hy, Nat.add_zero]), hlast, Nat.mul_comm (t / 2 ^ k), Nat.mul_add_mod, Nat.mod_mod,
      ← hxd, Nat.div_add_mod]
  · rw [List.getElem?_append_left (by omega), Settle.withoutOne_get L t k hk x hlt, if_neg e]

/-- C89: fewer than `2 ^ (k + 1)` leaves move. -/
theorem C89_few (s : RamForest H) (st : List (UndoBatch H × RamForest H)) (h : Ram.Run s st) (L : List H) (hL : Ram.Represents s L)
    (leaves : List (Leaf H)) (t k : ℕ) (hv : Ram.Valid L (leaves.map Prod.fst) [t]) (hk : 2 ^ k ∣ L.length) (hk' : ¬ 2 ^ (k + 1) ∣ L.length) :
    ∃ u s' L', Ram.modify s leaves [t] = .ok (true, some u, s') ∧ Ram.Represents s' L' ∧
      ((Finset.range L.length).filter fun x => x ≠ t ∧ L'[x]? ≠ L[x]?).card < 2 ^ (k + 1) := by
  have ht := hv.bound t (List.mem_singleton_self t)
  obtain ⟨u, s', L', h1, h2, -, h3⟩ := C89_places s st h L hL leaves t k hv hk hk'
  refine ⟨u, s', L', h1, h2, ?_⟩
  have hpos : 0 < 2 ^ k := by positivity
  have hle : 2 ^ k ≤ L.length := Nat.le_of_dvd (by omega) hk
  have hmt : t = t / 2 ^ k * 2 ^ k + t % 2 ^ k := by rw [Nat.mul_comm]; exact (Nat.div_add_mod t _).symm
  have hmod := Nat.mod_lt t hpos
  have hsub : ((Finset.range L.length).filter fun x => x ≠ t ∧ L'[x]? ≠ L[x]?) ⊆
      (Finset.Ico (t / 2 ^ k * 2 ^ k) (t / 2 ^ k * 2 ^ k + 2 ^ k)).erase t ∪ Finset.Ico (L.length - 2 ^ k) L.length := by
    intro x hx
    obtain ⟨hx, hxt, hne⟩ := Finset.mem_filter.1 hx
    rw [Finset.mem_range] at hx
    rw [Finset.mem_union, Finset.mem_erase, Finset.mem_Ico, Finset.mem_Ico]
    rcases Nat.lt_or_ge x (L.length - 2 ^ k) with hlt | hge
    · have := h3 x hlt
      split at this
      · next e =>
        have hmx : x = x / 2 ^ k * 2 ^ k + x % 2 ^ k := by rw [Nat.mul_comm]; exact (Nat.div_add_mod x _).symm
        have := Nat.mod_lt x hpos
        rw [e] at hmx
        exact Or.inl ⟨hxt, by omega, by omega⟩
      · exact absurd this hne
    · exact Or.inr ⟨hge, hx⟩
  have hcard := (Finset.card_le_card hsub).trans (Finset.card_union_le _ _)
  rw [Finset.card_erase_of_mem (by rw [Finset.mem_Ico]; omega), Nat.card_Ico, Nat.card_Ico] at hcard
  rw [pow_succ]
  omega

/-- C89: a pollard that verified the leaf has the roots of these leaves afterwards. -/
theorem C89_pollard (F : RamForest H) (st : List (UndoBatch H × RamForest H)) (p : Pollard H) (h : Pol.Sync F st p) (L : List H)
    (hL : Ram.Represents F L) (V : H → Prop) (p1 : Pollard H) (hV : Pol.Verifies L p V p1) (leaves : List (Leaf H)) (t k : ℕ)
    (hv : Ram.Valid L (leaves.map Prod.fst) [t]) (hD : Pol.Deletable L V p1 [t]) (p2 : Pollard H)
    (hm : Pol.modify p1 leaves [t] = .ok (true, p2)) (hk : 2 ^ k ∣ L.length) (hk' : ¬ 2 ^ (k + 1) ∣ L.length) :
    Pol.roots p2 = .ok (merkleRoots HashOps.ph (leafFn HashOps.zero (withoutOne L t k ++ leaves.map Prod.fst))
      (withoutOne L t k ++ leaves.map Prod.fst).length) := by
  rw [← C89_rule L t k (hv.bound t (List.mem_singleton_self t)) hk hk']
  exact (C56_pollard F st p h L hL V p1 hV leaves [t] hv hD p2 hm).2

namespace Examples

attribute [local instance] toyOps

/-- The hypotheses of `C89_forest`: 12 leaves, the smallest tree of four. -/
example : Ram.Valid (List.range 12) [20] [1] ∧ 2 ^ 2 ∣ (List.range 12).length ∧ ¬ 2 ^ (2 + 1) ∣ (List.range 12).length :=
  ⟨⟨by decide, by decide, by decide, by decide, by decide, by decide⟩, by decide, by decide⟩

/-- C89: of twelve leaves the second is deleted: the last four are now in front, and the rest of the first four at the end. -/
theorem _root_.Utreexo.C89_case : withoutOne (List.range 12) 1 2 = [8, 9, 10, 11, 4, 5, 6, 7, 2, 3, 0] ∧
    withoutOne (List.range 12) 9 2 = [0, 1, 2, 3, 4, 5, 6, 7, 10, 11, 8] ∧
    (do let s ← Ram.calls [((List.range 12).map fun i => (10 + i, false), []), ([], [1])] (Ram.mk 0)
        [18, 19, 20, 21, 14, 15, 16, 17, 12, 13, 10].mapM fun x => return (← Acc.prove Ram.vt s [x]).map BatchProof.targets) =
      .ok ((List.range 11).map fun i => some [i]) := by decide +kernel

/-- C89 for a pollard that follows a forest of twelve leaves, verifies the proof of the second one and deletes it. -/
theorem _root_.Utreexo.C89_pollard_case :
    (do let ls : List (Leaf ℕ) := (List.range 12).map fun i => (10 + i, false)
        let s ← Ram.calls [(ls, [])] (Ram.mk 0)
        let (_, p) ← Pol.modify (Pol.mk 0) ls []
        match ← Acc.prove Ram.vt s [11] with
        | none => .error .exc
        | some proof => do
          let (ok, p1) ← Pol.verify p proof [11]
          let (ok', p2) ← Pol.modify p1 [] [1]
          return (ok, ok', ← Pol.roots p2)) =
      .ok (true, true, merkleRoots HashOps.ph (leafFn HashOps.zero [18, 19, 20, 21, 14, 15, 16, 17, 12, 13, 10]) 11) := by decide +kernel

end Examples

end Utreexo
