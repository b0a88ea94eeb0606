import Verif.Props.Local
import Verif.Proof.Intact

/-!
# C88: subtrees without a deleted leaf are moved as a whole

However many leaves a block deletes, and whatever it moves to fill the gaps: `2 ^ r` leaves below one node, none of which is deleted, are
`2 ^ r` leaves below one node afterwards, in the same order. So the node keeps its hash, and of the proof of each of these leaves the first `r`
hashes stay the same.
-/

set_option linter.unusedSectionVars false

namespace Utreexo
open Spec Equiv Pol

variable {H : Type} [DecidableEq H] [HashOps H]

/-- C88: the rule. -/
theorem C88_rule {α : Type} (L : List α) (D : List ℕ) (r i : ℕ) (hi : InForest L.length r i) (hD : ∀ x ∈ D, x / 2 ^ r ≠ i) :
    ∃ j, InForest (deleteLeaves L D).length r j ∧ ∀ y < 2 ^ r, (deleteLeaves L D)[j * 2 ^ r + y]? = L[i * 2 ^ r + y]? := by
  obtain ⟨X, Y, e, j, hj⟩ := Settle.delete_block L D r i hi hD
  have hi' : i * 2 ^ r + 2 ^ r ≤ L.length := by unfold InForest at hi; rw [Nat.add_mul] at hi; omega
  have hlen : ((L.drop (i * 2 ^ r)).take (2 ^ r)).length = 2 ^ r := by
    rw [List.length_take, List.length_drop]; omega
  rw [Nat.mul_comm] at hj
  refine ⟨j, ?_, ?_⟩
  · unfold InForest
    rw [e, List.length_append, List.length_append, hlen, hj, Nat.add_mul]
    omega
  · intro y hy
    rw [e, List.getElem?_append_right (by omega), hj, Nat.add_sub_cancel_left, List.getElem?_append_left (by omega),
      List.getElem?_take_of_lt hy, List.getElem?_drop]

namespace Shelf

/-- Equal leaves below two nodes give equal hashes. -/
theorem mt_shift {f g : ℕ → H} : ∀ (r i j : ℕ), (∀ y < 2 ^ r, f (i * 2 ^ r + y) = g (j * 2 ^ r + y)) → mt f r i = mt g r j
  | 0, i, j, h => by
    rw [mt_zero, mt_zero]
    simpa using h 0 (by simp)
  | r + 1, i, j, h => by
    rw [mt_succ, mt_succ, mt_shift r (2 * i) (2 * j), mt_shift r (2 * i + 1) (2 * j + 1)]
    · intro y hy
      have := h (2 ^ r + y) (by rw [pow_succ]; omega)
      rw [show (2 * i + 1) * 2 ^ r + y = i * 2 ^ (r + 1) + (2 ^ r + y) by rw [pow_succ]; ring,
        show (2 * j + 1) * 2 ^ r + y = j * 2 ^ (r + 1) + (2 ^ r + y) by rw [pow_succ]; ring, this]
    · intro y hy
      have := h y (by rw [pow_succ]; omega)
      rw [show 2 * i * 2 ^ r + y = i * 2 ^ (r + 1) + y by rw [pow_succ]; ring,
        show 2 * j * 2 ^ r + y = j * 2 ^ (r + 1) + y by rw [pow_succ]; ring, this]

/-- The sibling of the ancestor of leaf `a` in row `q`. -/
def sib (a q : ℕ) : ℕ := 2 * (a / 2 ^ (q + 1)) + (1 - a / 2 ^ q % 2)

theorem proofNode_one {n a h q k : ℕ} (ht : InTree n h a) : ProofNode n [a] q k ↔ q < h ∧ k = sib a q := by
  have hup : a / 2 ^ (q + 1) = a / 2 ^ q / 2 := by rw [pow_succ, Nat.div_div_eq_div_mul]
  unfold ProofNode sib
  constructor
  · rintro ⟨j, b, hb, rfl, hj, ⟨a', ha, he⟩, -⟩
    obtain rfl := List.mem_singleton.1 ha
    have : a' / 2 ^ (q + 1) = j := by omega
    rw [← this, inForest_iff_le ht] at hj
    exact ⟨by omega, by omega⟩
  · rintro ⟨hq, rfl⟩
    refine ⟨a / 2 ^ (q + 1), a / 2 ^ q % 2, by omega, rfl, (inForest_iff_le ht).2 (by omega), ⟨a, List.mem_singleton_self a, by omega⟩, ?_⟩
    intro a' ha
    obtain rfl := List.mem_singleton.1 ha
    omega

/-- The proof of one leaf: the siblings on its way up. -/
theorem Proof.one {L : List H} {x : H} {pf : BatchProof H} {nodes : List (ℕ × ℕ)} (h : Proof L [x] pf nodes) :
    ∃ a t, pf.targets = [a] ∧ L[a]? = some x ∧ InTree L.length t a ∧ pf.hashes = (List.range t).map fun q => node L q (sib a q) := by
  have hT := h.targets
  have hl := congrArg List.length hT
  rw [List.length_map, List.length_map, List.length_singleton] at hl
  obtain ⟨a, ha⟩ := List.length_eq_one_iff.1 hl
  rw [ha] at hT
  simp only [List.map_cons, List.map_nil, List.cons.injEq, and_true] at hT
  obtain ⟨t, ht⟩ := exists_tree (h.lt a (by rw [ha]; exact List.mem_singleton_self a))
  refine ⟨a, t, ha, hT, ht, ?_⟩
  have hn : nodes = (List.range t).map fun q => (q, sib a q) := by
    refine ext h.lex ?_ ?_
    · rw [List.pairwise_map]
      exact List.pairwise_lt_range.imp fun h => .inl h
    · rintro ⟨q, k⟩
      rw [h.mem, ha, proofNode_one ht, List.mem_map]
      constructor
      · rintro ⟨h1, rfl⟩
        exact ⟨q, List.mem_range.2 h1, rfl⟩
      · rintro ⟨q', h1, h2⟩
        simp only [Prod.mk.injEq] at h2
        obtain ⟨rfl, rfl⟩ := h2
        exact ⟨List.mem_range.1 h1, rfl⟩
  rw [h.hashes, hn, List.map_map]
  rfl

/-- Siblings inside a subtree that has been moved. -/
theorem sib_shift {q r c y : ℕ} (hq : q < r) (hy : y < 2 ^ r) : sib (c * 2 ^ r + y) q = c * 2 ^ (r - q) + sib y q ∧ sib y q < 2 ^ (r - q) := by
  obtain ⟨d, rfl⟩ : ∃ d, r = q + (d + 1) := ⟨r - q - 1, by omega⟩
  have e1 : (c * 2 ^ (q + (d + 1)) + y) / 2 ^ (q + 1) = c * 2 ^ d + y / 2 ^ (q + 1) := by
    rw [show c * 2 ^ (q + (d + 1)) + y = 2 ^ (q + 1) * (c * 2 ^ d) + y by rw [pow_add, pow_succ, pow_succ]; ring, Nat.mul_add_div (by positivity)]
  have e2 : (c * 2 ^ (q + (d + 1)) + y) / 2 ^ q = 2 * (c * 2 ^ d) + y / 2 ^ q := by
    rw [show c * 2 ^ (q + (d + 1)) + y = 2 ^ q * (2 * (c * 2 ^ d)) + y by rw [pow_add, pow_succ]; ring, Nat.mul_add_div (by positivity)]
  have e3 : y / 2 ^ (q + 1) < 2 ^ d := Nat.div_lt_of_lt_mul (by rw [← pow_add]; convert hy using 2; omega)
  unfold sib
  rw [e1, e2, show q + (d + 1) - q = d + 1 by omega, show 2 ^ (d + 1) = 2 ^ d * 2 from pow_succ 2 d]
  refine ⟨?_, by omega⟩
  rw [show c * (2 ^ d * 2) = 2 * (c * 2 ^ d) by ring]
  omega

end Shelf

open Shelf

/-- C88 for `Modify` with sane targets: the subtree below the node `(r, i)`, without a deleted leaf, is found below a node `(r, j)` of the new
forest, and the node has the same hash. -/
theorem C88_forest (s : RamForest H) (st : List (UndoBatch H × RamForest H)) (h : Ram.Run s st) (L : List H)
    (hL : Ram.Represents s L) (leaves : List (Leaf H)) (targets : List ℕ) (hv : Ram.Valid L (leaves.map Prod.fst) targets)
    (r i : ℕ) (hi : InForest L.length r i) (hD : ∀ x ∈ targets, x / 2 ^ r ≠ i) :
    ∃ u s' L' j, Ram.modify s leaves targets = .ok (true, some u, s') ∧ Ram.Run s' ((u, s) :: st) ∧ Ram.Represents s' L' ∧
      InForest L'.length r j ∧ (∀ y < 2 ^ r, L'[j * 2 ^ r + y]? = L[i * 2 ^ r + y]?) ∧ node L' r j = node L r i := by
  obtain ⟨u, s', e1, e2, e3⟩ := C56_order s st h L hL leaves targets hv
  obtain ⟨j, hj, hy⟩ := C88_rule L targets r i hi hD
  have key : ∀ y < 2 ^ r, (deleteLeaves L targets ++ leaves.map Prod.fst)[j * 2 ^ r + y]? = L[i * 2 ^ r + y]? := by
    intro y hlt
    rw [← hy y hlt, List.getElem?_append_left]
    unfold InForest at hj
    rw [Nat.add_mul] at hj
    omega
  refine ⟨u, s', _, j, e1, e2, e3, InForest.mono hj (by rw [List.length_append]; omega), key, ?_⟩
  apply mt_shift
  intro y hlt
  unfold leafFn
  rw [List.getD_eq_getElem?_getD, List.getD_eq_getElem?_getD, key y hlt]

/-- C88 for proofs: of the proof of a leaf of such a subtree the first `r` hashes, those from inside the subtree, are the same afterwards. -/
theorem C88_proof (s : RamForest H) (st : List (UndoBatch H × RamForest H)) (h : Ram.Run s st) (L : List H)
    (hL : Ram.Represents s L) (leaves : List (Leaf H)) (targets : List ℕ) (hv : Ram.Valid L (leaves.map Prod.fst) targets)
    (r a : ℕ) (hi : InForest L.length r (a / 2 ^ r)) (hD : ∀ x ∈ targets, x / 2 ^ r ≠ a / 2 ^ r) (x : H) (ha : L[a]? = some x)
    (pf : BatchProof H) (hp : Acc.prove Ram.vt s [x] = .ok (some pf)) :
    ∃ u s' pf', Ram.modify s leaves targets = .ok (true, some u, s') ∧ Acc.prove Ram.vt s' [x] = .ok (some pf') ∧
      pf.hashes.take r = pf'.hashes.take r ∧ r ≤ pf.hashes.length ∧ r ≤ pf'.hashes.length := by
  obtain ⟨u, s', L', j, e1, e2, e3, e4, e5, -⟩ := C88_forest s st h L hL leaves targets hv r _ hi hD
  obtain ⟨nodes, hP⟩ := Proof.of h hL hp
  have hpos : 0 < 2 ^ r := by positivity
  have hylt := Nat.mod_lt a hpos
  have hsplit : a / 2 ^ r * 2 ^ r + a % 2 ^ r = a := by rw [Nat.mul_comm]; exact Nat.div_add_mod a (2 ^ r)
  have ha' : L'[j * 2 ^ r + a % 2 ^ r]? = some x := by rw [e5 _ hylt, hsplit, ha]
  obtain ⟨q, g1, g2, -⟩ := C22_prove s' _ e2 L' e3 [x]
  obtain ⟨pf', rfl⟩ := Option.isSome_iff_exists.1 (g2.2 ⟨List.nodup_singleton x, fun y hy => by
    rw [List.mem_singleton.1 hy]; exact List.mem_of_getElem? ha'⟩)
  obtain ⟨nodes', hP'⟩ := Proof.of e2 e3 g1
  obtain ⟨b, t, -, b2, b3, b4⟩ := hP.one
  obtain ⟨b', t', -, c2, c3, c4⟩ := hP'.one
  have uniq : ∀ {M : List H}, M.Nodup → ∀ {m n : ℕ}, M[m]? = some x → M[n]? = some x → m = n := by
    intro M hM m n hm hn
    obtain ⟨k1, k2⟩ := List.getElem?_eq_some_iff.1 hm
    obtain ⟨k3, k4⟩ := List.getElem?_eq_some_iff.1 hn
    exact (List.Nodup.getElem_inj_iff hM).1 (k2.trans k4.symm)
  obtain ⟨L0, hL0, hnd, -⟩ := C16_represents s st h
  obtain rfl := hL.unique hL0
  obtain ⟨L0', hL0', hnd', -⟩ := C16_represents s' _ e2
  obtain rfl := e3.unique hL0'
  obtain rfl := uniq hnd ha b2
  obtain rfl := uniq hnd' ha' c2
  have hr : r ≤ t := (inForest_iff_le b3).1 hi
  have hr' : r ≤ t' := (inForest_iff_le c3).1 (by
    rw [Nat.mul_comm j, Nat.mul_add_div hpos, Nat.div_eq_of_lt hylt, Nat.add_zero]; exact e4)
  refine ⟨u, s', pf', e1, g1, ?_, by rw [b4]; simpa using hr, by rw [c4]; simpa using hr'⟩
  rw [b4, c4, ← List.map_take, ← List.map_take, List.take_range, List.take_range, Nat.min_eq_left hr, Nat.min_eq_left hr']
  apply List.map_congr_left
  intro q hq
  have hq := List.mem_range.1 hq
  obtain ⟨d1, d2⟩ := sib_shift (c := a / 2 ^ r) hq hylt
  obtain ⟨d3, -⟩ := sib_shift (c := j) hq hylt
  rw [hsplit] at d1
  rw [d1, d3]
  apply mt_shift
  intro y hy
  have hp2 : 2 ^ r = 2 ^ (r - q) * 2 ^ q := by rw [← pow_add]; congr 1; omega
  have hin : sib (a % 2 ^ r) q * 2 ^ q + y < 2 ^ r := by
    have h1 : (sib (a % 2 ^ r) q + 1) * 2 ^ q ≤ 2 ^ (r - q) * 2 ^ q := Nat.mul_le_mul_right _ d2
    rw [Nat.add_mul, ← hp2] at h1
    omega
  have hsh : ∀ c : ℕ, (c * 2 ^ (r - q) + sib (a % 2 ^ r) q) * 2 ^ q + y = c * 2 ^ r + (sib (a % 2 ^ r) q * 2 ^ q + y) := by
    intro c
    rw [Nat.add_mul, Nat.mul_assoc, ← hp2, Nat.add_assoc]
  unfold leafFn
  rw [hsh, hsh, List.getD_eq_getElem?_getD, List.getD_eq_getElem?_getD, e5 _ hin]

namespace Shelf

/-- The leaves `B` are those below one node of height `r`. -/
def Below (L : List H) (r : ℕ) (B : List H) : Prop := ∃ j, InForest L.length r j ∧ ∀ y < 2 ^ r, L[j * 2 ^ r + y]? = B[y]?

/-- None of the calls deletes one of the leaves `B`. -/
def Spares (B : List H) : List H → List (List (Leaf H) × List ℕ) → Prop
  | _, [] => True
  | L, c :: cs => (∀ t ∈ c.2, ∀ x, L[t]? = some x → x ∉ B) ∧ Spares B (Ram.leavesAfter L c) cs

theorem Below.after {L B : List H} {r : ℕ} (h : Below L r B) {c : List (Leaf H) × List ℕ} (hc : ∀ t ∈ c.2, ∀ x, L[t]? = some x → x ∉ B) :
    Below (Ram.leavesAfter L c) r B := by
  obtain ⟨i, hi, hB⟩ := h
  have hpos : 0 < 2 ^ r := by positivity
  have hlt : ∀ y < 2 ^ r, i * 2 ^ r + y < L.length := by
    intro y hy
    unfold InForest at hi
    rw [Nat.add_mul] at hi
    omega
  obtain ⟨j, hj, hy⟩ := C88_rule L c.2 r i hi (by
    rintro t ht rfl
    have hm := Nat.mod_lt t hpos
    have hs : t / 2 ^ r * 2 ^ r + t % 2 ^ r = t := by rw [Nat.mul_comm]; exact Nat.div_add_mod t (2 ^ r)
    have h1 := hB _ hm
    have h2 := hlt _ hm
    rw [hs] at h1 h2
    refine hc t ht _ (List.getElem?_eq_getElem h2) (List.mem_of_getElem? (i := t % 2 ^ r) ?_)
    rw [← h1, List.getElem?_eq_getElem h2])
  refine ⟨j, InForest.mono hj (by unfold Ram.leavesAfter; rw [List.length_append]; omega), fun y hlt' => ?_⟩
  unfold Ram.leavesAfter
  rw [← hB y hlt', ← hy y hlt', List.getElem?_append_left]
  unfold InForest at hj
  rw [Nat.add_mul] at hj
  omega

end Shelf

/-- C88 over any number of calls: leaves that make up a subtree do so until one of them is deleted. -/
theorem C88_calls (s : RamForest H) (st : List (UndoBatch H × RamForest H)) (h : Ram.Run s st) (L : List H) (hL : Ram.Represents s L)
    (cs : List (List (Leaf H) × List ℕ)) (hv : Ram.ValidCalls L cs) (r : ℕ) (B : List H) (hB : Below L r B) (hb : Spares B L cs) :
    ∃ s' st' L', Ram.calls cs s = .ok s' ∧ Ram.Run s' st' ∧ Ram.Represents s' L' ∧ Below L' r B := by
  obtain ⟨s', st', e1, e2, e3⟩ := C56_calls s st h L hL cs hv
  refine ⟨s', st', _, e1, e2, e3, ?_⟩
  clear e1 e2 e3 hv hL h
  induction cs generalizing L with
  | nil => exact hB
  | cons c cs ih => exact ih _ (hB.after hb.1) hb.2

/-! ## Concrete cases -/

/-- Of 16 leaves four are deleted. The subtree of four leaves from 12 on moves to 8, and the pair from 10 on to 0. Leaf 8, whose sibling is
deleted, becomes the sibling of 4. -/
example : deleteLeaves (List.range 16) [0, 1, 5, 9] = [10, 11, 2, 3, 4, 8, 6, 7, 12, 13, 14, 15] := by decide

namespace Examples

attribute [local instance] toyOps

/-- The hypotheses of `C88_proof`: 16 leaves of which four are deleted, and a leaf of the last subtree of four. -/
example : Ram.Valid (List.range 16) [20] [0, 1, 5, 9] ∧ InForest (List.range 16).length 2 (13 / 2 ^ 2) ∧ ∀ x ∈ [0, 1, 5, 9], x / 2 ^ 2 ≠ 13 / 2 ^ 2 :=
  ⟨⟨by decide, by decide, by decide, by decide, by decide, by decide⟩, by unfold InForest; decide, by decide⟩

/-- C88: leaf 23 of the last subtree of four moves from position 13 to 9, and its proof keeps the two hashes from inside the subtree. Of the
proof of leaf 16, in a subtree of four with a deleted leaf, the first hash, from inside the pair, stays and the second does not. -/
theorem _root_.Utreexo.C88_case :
    (do let s ← Ram.calls [((List.range 16).map fun i => (10 + i, false), [])] (Ram.mk 0)
        let s' ← Ram.calls [([(50, false)], [0, 1, 5, 9])] s
        let a ← Acc.prove Ram.vt s [23]
        let b ← Acc.prove Ram.vt s' [23]
        let c ← Acc.prove Ram.vt s [16]
        let d ← Acc.prove Ram.vt s' [16]
        return [a.map BatchProof.targets, b.map BatchProof.targets, a.map BatchProof.hashes, b.map BatchProof.hashes, c.map BatchProof.hashes,
          d.map BatchProof.hashes]) =
    .ok [some [13], some [9], some [22, 24251, 18393111, 10375438111], some [22, 24251], some [17, 14151, 10232311, 18617846111],
      some [17, 14181, 20332311]] := by decide +kernel

/-- The hypotheses of `C88_calls`: the four leaves from 12 on, and two blocks. -/
example : Below (List.range 16) 2 [12, 13, 14, 15] ∧
    Ram.ValidCalls (List.range 16) [([(20, false)], [0, 1, 5, 9]), ([(21, false)], [0, 3])] ∧
    Spares [12, 13, 14, 15] (List.range 16) [([(20, false)], [0, 1, 5, 9]), ([(21, false)], [0, 3])] := by
  refine ⟨⟨3, by unfold InForest; decide, by decide⟩, ⟨⟨by decide, by decide, by decide, by decide, by decide, by decide⟩,
    ⟨by decide, by decide, by decide, ?_, ?_, ?_⟩, trivial⟩, ?_, ?_, trivial⟩
  · decide
  · decide
  · decide
  · intro t ht x hx
    simp only [List.mem_cons, List.not_mem_nil, or_false] at ht
    rcases ht with rfl | rfl | rfl | rfl <;> (obtain rfl := Option.some.inj hx; decide)
  · intro t ht x hx
    simp only [List.mem_cons, List.not_mem_nil, or_false] at ht
    rcases ht with rfl | rfl <;> (obtain rfl := Option.some.inj hx; decide)

end Examples

end Utreexo
