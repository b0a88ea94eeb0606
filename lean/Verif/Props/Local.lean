import Verif.Props.Shelf
import Verif.Props.Order
import Verif.Props.Pieces
import Verif.Proof.Local

/-!
# C87: blocks that delete new leaves only

Take a multiple `m` of `2 ^ t` such that at most `2 ^ t` leaves come after the first `m`. A block whose deletions are all among these does not
move any of the first `m` leaves, and what comes after them is arranged as in a forest of its own. The proofs for the first `m` leaves stay
good as long as their trees are not merged into taller ones.
-/

set_option linter.unusedSectionVars false

namespace Utreexo
open Spec Equiv Pol

variable {H : Type} [DecidableEq H] [HashOps H]

/-- C87: the rule. -/
theorem C87_rule {α : Type} (L : List α) (D : List ℕ) (t m : ℕ) (hm : m ≤ L.length) (hd : 2 ^ t ∣ m) (hle : L.length ≤ m + 2 ^ t)
    (hD : ∀ x ∈ D, m ≤ x) : deleteLeaves L D = L.take m ++ deleteLeaves (L.drop m) (D.map (· - m)) :=
  Settle.delete_right L D t m hm hd hle hD

/-- C87 for `Modify`: the forest holds the first `m` leaves where they were, after them the rest as a forest of its own would, and then the
additions. -/
theorem C87_forest (s : RamForest H) (st : List (UndoBatch H × RamForest H)) (h : Ram.Run s st) (L : List H)
    (hL : Ram.Represents s L) (leaves : List (Leaf H)) (targets : List ℕ) (hv : Ram.Valid L (leaves.map Prod.fst) targets)
    (t m : ℕ) (hm : m ≤ L.length) (hd : 2 ^ t ∣ m) (hle : L.length ≤ m + 2 ^ t) (hD : ∀ x ∈ targets, m ≤ x) :
    ∃ u s', Ram.modify s leaves targets = .ok (true, some u, s') ∧ Ram.Run s' ((u, s) :: st) ∧
      Ram.Represents s' (L.take m ++ (deleteLeaves (L.drop m) (targets.map (· - m)) ++ leaves.map Prod.fst)) := by
  obtain ⟨u, s', e1, e2, e3⟩ := C56_order s st h L hL leaves targets hv
  refine ⟨u, s', e1, e2, ?_⟩
  rw [← List.append_assoc, ← C87_rule L targets t m hm hd hle hD]
  exact e3

namespace Shelf

/-- Each call deletes leaves after the first `m` only, and when it deletes there are at most `2 ^ t` of them. -/
def Beyond (t m : ℕ) : List H → List (List (Leaf H) × List ℕ) → Prop
  | _, [] => True
  | L, c :: cs => (c.2 ≠ [] → L.length ≤ m + 2 ^ t ∧ ∀ x ∈ c.2, m ≤ x) ∧ Beyond t m (Ram.leavesAfter L c) cs

/-- Of a forest with the same first leaves: the ancestors of these leaves are the same. -/
theorem inForest_first {n m t a : ℕ} (hd : 2 ^ t ∣ m) (hm : m ≤ n) (hn : n < m + 2 ^ t) (ha : a < m) (r : ℕ) :
    InForest n r (a / 2 ^ r) ↔ InForest m r (a / 2 ^ r) := by
  unfold InForest
  refine ⟨fun h => ?_, fun h => le_trans h hm⟩
  rcases Nat.le_total r t with hr | hr
  · obtain ⟨c, rfl⟩ := (Nat.pow_dvd_pow 2 hr).trans hd
    have h1 : a / 2 ^ r < c := Nat.div_lt_of_lt_mul ha
    rw [Nat.mul_comm (2 ^ r) c]
    exact Nat.mul_le_mul_right _ h1
  · obtain ⟨c, hc⟩ : 2 ^ t ∣ (a / 2 ^ r + 1) * 2 ^ r := (Nat.pow_dvd_pow 2 hr).mul_left _
    obtain ⟨d, rfl⟩ := hd
    rw [hc] at h ⊢
    refine Nat.mul_le_mul_left _ ?_
    have : 2 ^ t * c < 2 ^ t * (d + 1) := by rw [Nat.mul_add, Nat.mul_one]; omega
    exact Nat.le_of_lt_succ (Nat.lt_of_mul_lt_mul_left this)

theorem inTree_first {n m t a q : ℕ} (hd : 2 ^ t ∣ m) (hm : m ≤ n) (hn : n < m + 2 ^ t) (ha : a < m) : InTree n q a ↔ InTree m q a := by
  have := inForest_first hd hm hn ha
  constructor
  · exact fun h => (keeps_iff h ha).2 this
  · exact fun h => (keeps_iff h (by omega)).2 fun r => (this r).symm

/-- There is a forest with the first leaves alone. -/
theorem first (s : RamForest H) (st : List (UndoBatch H × RamForest H)) (h : Ram.Run s st) (L : List H) (hL : Ram.Represents s L) (m : ℕ) :
    ∃ s' st', Ram.Run s' st' ∧ Ram.Represents s' (L.take m) := by
  obtain ⟨L0, hL0, hn, hl⟩ := C16_represents s st h
  obtain rfl := hL.unique hL0
  have hL0 : Ram.Represents (Ram.mk 0 : RamForest H) [] := Ram.mk_inv.represents (f := leafFn HashOps.zero []) (by omega)
  have hmap : ((L.take m).map fun x => ((x, false) : Leaf H)).map Prod.fst = L.take m := by
    rw [List.map_map]
    exact List.map_id _
  obtain ⟨u, s', -, e2, e3⟩ := C56_order (Ram.mk 0) [] .empty [] hL0 ((L.take m).map fun x => (x, false)) [] (by
    rw [hmap]
    refine ⟨List.Pairwise.nil, by simp, hn.sublist (List.take_sublist _ _), ?_, by simp, ?_⟩
    · intro x hx
      simp [survivors] at hx
    · simp only [List.length_nil, List.length_take]
      omega)
  rw [hmap] at e3
  exact ⟨s', _, e2, e3⟩

end Shelf

open Shelf

/-- C87 over any number of calls: the first `m` leaves stay where they are. -/
theorem C87_calls (s : RamForest H) (st : List (UndoBatch H × RamForest H)) (h : Ram.Run s st) (L : List H) (hL : Ram.Represents s L)
    (cs : List (List (Leaf H) × List ℕ)) (hv : Ram.ValidCalls L cs) (t m : ℕ) (hm : m ≤ L.length) (hd : 2 ^ t ∣ m)
    (hb : Beyond t m L cs) :
    ∃ s' st' R, Ram.calls cs s = .ok s' ∧ Ram.Run s' st' ∧ Ram.Represents s' (L.take m ++ R) := by
  obtain ⟨s', st', e1, e2, e3⟩ := C56_calls s st h L hL cs hv
  obtain ⟨L0, hL0, -, hl⟩ := C16_represents s st h
  obtain rfl := hL.unique hL0
  suffices hsuff : ∀ (cs : List (List (Leaf H) × List ℕ)) (L : List H), m ≤ L.length → L.length ≤ 2 ^ 62 → Ram.ValidCalls L cs →
      Beyond t m L cs → ∃ R, cs.foldl Ram.leavesAfter L = L.take m ++ R by
    obtain ⟨R, hR⟩ := hsuff cs L hm hl hv hb
    exact ⟨s', st', R, e1, e2, hR ▸ e3⟩
  intro cs
  induction cs with
  | nil => exact fun L hm _ _ _ => ⟨L.drop m, (List.take_append_drop m L).symm⟩
  | cons c cs ih =>
    intro L hm hl hv hb
    have hc : ∃ R, Ram.leavesAfter L c = L.take m ++ R := by
      unfold Ram.leavesAfter
      by_cases h0 : c.2 = []
      · rw [h0, C56_nothing L hl]
        exact ⟨L.drop m ++ c.1.map Prod.fst, by rw [← List.append_assoc, List.take_append_drop]⟩
      · obtain ⟨k1, k2⟩ := hb.1 h0
        rw [C87_rule L c.2 t m hm hd k1 k2, List.append_assoc]
        exact ⟨_, rfl⟩
    obtain ⟨R, hR⟩ := hc
    have hlen : (L.take m).length = m := by rw [List.length_take]; omega
    have h2 : (Ram.leavesAfter L c).length ≤ 2 ^ 62 := by
      have := hv.1.total
      rw [List.length_map] at this
      unfold Ram.leavesAfter
      rw [List.length_append, List.length_map, Ram.delete_length hv.1.sorted hv.1.bound hl]
      omega
    obtain ⟨R', hR'⟩ := ih _ (by rw [hR, List.length_append]; omega) h2 hv.2 hb.2
    refine ⟨R', ?_⟩
    rw [List.foldl_cons, hR', hR, List.take_append_of_le_length (by omega), List.take_of_length_le (by omega)]

/-- C87: which proofs stay good. If a forest comes from another by whatever happened beyond the first `m` leaves, `m` a multiple of `2 ^ t` and less
than `2 ^ t` leaves beyond it at first, `Prove` returns the same proof for leaves among the first `m` exactly if the trees with a target
are still trees of the forest. -/
theorem C87_proof (F F' : RamForest H) (st st' : List (UndoBatch H × RamForest H)) (h : Ram.Run F st) (h' : Ram.Run F' st') (L R : List H)
    (t m : ℕ) (hm : m ≤ L.length) (hd : 2 ^ t ∣ m) (hlt : L.length < m + 2 ^ t)
    (hL : Ram.Represents F L) (hL' : Ram.Represents F' (L.take m ++ R)) (hashes : List H) (pf : BatchProof H)
    (hp : Acc.prove Ram.vt F hashes = .ok (some pf)) (ht : ∀ a ∈ pf.targets, a < m) :
    Acc.prove Ram.vt F' hashes = .ok (some pf) ↔ ∀ a ∈ pf.targets, ∀ q, InTree L.length q a → InTree (m + R.length) q a := by
  obtain ⟨G, sg, hG, hLG⟩ := first F st h L hL m
  have hlen : (L.take m).length = m := by rw [List.length_take]; omega
  have hpG : Acc.prove Ram.vt G hashes = .ok (some pf) := by
    refine C83_same F G st sg h hG L (L.take m) hL hLG hashes pf hp ?_ ?_
    · intro a ha r
      rw [hlen]
      exact inForest_first hd hm hlt (ht a ha) r
    · intro a ha r x hin hx
      rw [inForest_first hd hm hlt (ht a ha)] at hin
      unfold InForest at hin
      have := Nat.lt_mul_div_succ x (show 0 < 2 ^ r by positivity)
      rw [hx, mul_comm] at this
      rw [List.getElem?_take_of_lt (by omega)]
  rw [C83_add G F' sg st' hG h' (L.take m) R hLG hL' hashes pf hpG, hlen]
  constructor
  · intro hk a ha q hq
    exact hk a ha q ((inTree_first hd hm hlt (ht a ha)).1 hq)
  · intro hk a ha q hq
    exact hk a ha q ((inTree_first hd hm hlt (ht a ha)).2 hq)

/-- C87 in numbers: as long as there are less than `2 ^ t` leaves beyond the first `m`, all these proofs are good. -/
theorem C87_good (F F' : RamForest H) (st st' : List (UndoBatch H × RamForest H)) (h : Ram.Run F st) (h' : Ram.Run F' st') (L R : List H)
    (t m : ℕ) (hm : m ≤ L.length) (hd : 2 ^ t ∣ m) (hlt : L.length < m + 2 ^ t) (hR : R.length < 2 ^ t)
    (hL : Ram.Represents F L) (hL' : Ram.Represents F' (L.take m ++ R)) (hashes : List H) (pf : BatchProof H)
    (hp : Acc.prove Ram.vt F hashes = .ok (some pf)) (ht : ∀ a ∈ pf.targets, a < m) :
    Acc.prove Ram.vt F' hashes = .ok (some pf) := by
  rw [C87_proof F F' st st' h h' L R t m hm hd hlt hL hL' hashes pf hp ht]
  intro a ha q hq
  rw [inTree_first hd (by omega) (by omega) (ht a ha)]
  exact (inTree_first hd hm hlt (ht a ha)).1 hq

/-- C87: and every pollard that follows the forest accepts them. -/
theorem C87_verify (F F' : RamForest H) (st st' : List (UndoBatch H × RamForest H)) (h : Ram.Run F st) (p : Pollard H) (h' : Sync F' st' p)
    (L R : List H) (t m : ℕ) (hm : m ≤ L.length) (hd : 2 ^ t ∣ m) (hlt : L.length < m + 2 ^ t)
    (hL : Ram.Represents F L) (hL' : Ram.Represents F' (L.take m ++ R)) (hashes : List H) (pf : BatchProof H)
    (hp : Acc.prove Ram.vt F hashes = .ok (some pf)) (ht : ∀ a ∈ pf.targets, a < m)
    (hk : ∀ a ∈ pf.targets, ∀ q, InTree L.length q a → InTree (m + R.length) q a)
    (hs : List H) (hhs : hs.map some = pf.sorted.map fun t => L[t]?) :
    ∃ p', verify p pf hs = .ok (true, p') ∧ ¬ Collision p' (L.take m ++ R) ∧ Sync F' st' p' := by
  obtain ⟨_, _, hI⟩ := h'.inv
  obtain ⟨nodes, hP⟩ := Proof.of h hL hp
  refine C24_complete F' st' p h' (L.take m ++ R) hL' hashes pf
    ((C87_proof F F' st st' h hI.run L R t m hm hd hlt hL hL' hashes pf hp ht).2 hk) hs ?_
  rw [hhs]
  apply List.map_congr_left
  intro x hx
  have := ht x (hP.perm.mem_iff.1 hx)
  rw [List.getElem?_append_left (by rw [List.length_take]; omega), List.getElem?_take_of_lt this]

/-! ## Concrete cases -/

/-- The rule on 14 leaves with `m = 8`, `t = 3`: two leaves of the tree of four and one of the tree of two are deleted. -/
example : deleteLeaves (List.range 14) [9, 10, 12] = [0, 1, 2, 3, 4, 5, 6, 7] ++ deleteLeaves [8, 9, 10, 11, 12, 13] [1, 2, 4] ∧
    deleteLeaves [8, 9, 10, 11, 12, 13] [1, 2, 4] = [8, 11, 13] := by decide

/-- C87: with more leaves beyond the first `m` the first ones may move: the second pair of eight leaves is deleted, and the first pair goes to
the end. -/
theorem C87_far : deleteLeaves (List.range 8) [2, 3] = [4, 5, 6, 7, 0, 1] := by decide

/-- C87: `m` has to be a multiple of `2 ^ t`: the sibling of a deleted leaf moves. -/
theorem C87_inside : deleteLeaves (List.range 6) [3] = [0, 1, 4, 5, 2] := by decide

namespace Examples

attribute [local instance] toyOps

/-- The hypotheses of `C87_forest` and `C87_calls`. -/
example : Ram.ValidCalls (List.range 14) [([(20, false), (21, false)], [9, 10, 12]), ([(22, false)], [8])] ∧
    Beyond 3 8 (List.range 14) [([(20, false), (21, false)], [9, 10, 12]), ([(22, false)], [8])] := by
  refine ⟨⟨⟨by decide, by decide, by decide, by decide, by decide, by decide⟩, ⟨by decide, by decide, by decide, ?_, ?_, ?_⟩, trivial⟩,
    fun _ => ⟨by decide, by decide⟩, fun _ => ⟨by decide, by decide⟩, trivial⟩ <;> decide

/-- C87: two blocks that delete among the last six of 14 leaves do not change the proof for two of the first eight; one that deletes a leaf of
their tree does. -/
theorem _root_.Utreexo.C87_case :
    (do let s ← Ram.calls [((List.range 14).map fun i => (10 + i, false), [])] (Ram.mk 0)
        let s' ← Ram.calls [([(50, false), (51, false)], [9, 10, 12]), ([(52, false)], [8])] s
        let d ← Ram.calls [([], [7])] s
        let a ← Acc.prove Ram.vt s [15, 12]
        let b ← Acc.prove Ram.vt s' [15, 12]
        let c ← Acc.prove Ram.vt d [15, 12]
        return [a.isSome, decide (b = a), decide (c = a)]) = .ok [true, true, false] := by decide +kernel

end Examples

end Utreexo
