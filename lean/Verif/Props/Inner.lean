import Verif.Props.Intact

/-!
# C88, continued: the proof of leaves of one subtree

The proof of leaves that lie below one node of height `r` is the proof that a forest with nothing but the leaves below that node would give,
followed by one hash for each row from `r` to the top of the tree.
-/

set_option linter.unusedSectionVars false

namespace Utreexo
open Spec Equiv Pol

variable {H : Type} [DecidableEq H] [HashOps H]

namespace Shelf

/-- Inside the subtree below the node `(r, c)` the nodes of a proof are those in the subtree by itself. -/
theorem proofNode_inside {n r c q k : ℕ} {Y : List ℕ} (hc : InForest n r c) (hY : ∀ y ∈ Y, y < 2 ^ r) (hq : q < r) :
    ProofNode n (Y.map (c * 2 ^ r + ·)) q k ↔ ∃ k0, k = c * 2 ^ (r - q) + k0 ∧ ProofNode (2 ^ r) Y q k0 := by
  obtain ⟨d, rfl⟩ : ∃ d, r = q + (d + 1) := ⟨r - q - 1, by omega⟩
  have e2 : ∀ y, (c * 2 ^ (q + (d + 1)) + y) / 2 ^ q = 2 * (c * 2 ^ d) + y / 2 ^ q := by
    intro y
    rw [show c * 2 ^ (q + (d + 1)) + y = 2 ^ q * (2 * (c * 2 ^ d)) + y by rw [pow_add, pow_succ]; ring, Nat.mul_add_div (by positivity)]
  have e3 : ∀ y ∈ Y, y / 2 ^ q < 2 * 2 ^ d := by
    intro y hy
    refine Nat.div_lt_of_lt_mul ?_
    have := hY y hy
    rw [pow_add, pow_succ] at this
    rw [Nat.mul_comm 2 (2 ^ d)]
    exact this
  have hP : 2 ^ (q + (d + 1)) = 2 ^ d * 2 ^ (q + 1) := by rw [pow_add, pow_succ, pow_succ]; ring
  rw [show q + (d + 1) - q = d + 1 by omega, show c * 2 ^ (d + 1) = 2 * (c * 2 ^ d) by rw [pow_succ]; ring]
  unfold InForest at hc
  unfold ProofNode InForest
  constructor
  · rintro ⟨j, b, hb, rfl, hj, ⟨a, ha, he⟩, hno⟩
    obtain ⟨y, hy, rfl⟩ := List.mem_map.1 ha
    rw [e2] at he
    have h3 := e3 y hy
    have hcj : c * 2 ^ d ≤ j := by
      have := Nat.zero_le (y / 2 ^ q)
      omega
    refine ⟨2 * (j - c * 2 ^ d) + (1 - b), by omega, j - c * 2 ^ d, b, hb, rfl, ?_, ⟨y, hy, by omega⟩, ?_⟩
    · rw [hP]
      exact Nat.mul_le_mul_right _ (by omega)
    · intro y' hy' h'
      apply hno _ (List.mem_map_of_mem hy')
      rw [e2, h']
      omega
  · rintro ⟨k0, rfl, j, b, hb, rfl, hj, ⟨y, hy, he⟩, hno⟩
    have h3 := e3 y hy
    refine ⟨c * 2 ^ d + j, b, hb, by omega, ?_, ⟨_, List.mem_map_of_mem hy, by rw [e2, he]; omega⟩, ?_⟩
    · refine le_trans ?_ hc
      rw [hP, ← Nat.mul_assoc]
      refine Nat.mul_le_mul_right _ ?_
      rw [Nat.add_mul, Nat.one_mul]
      omega
    · intro a ha
      obtain ⟨y', hy', rfl⟩ := List.mem_map.1 ha
      rw [e2]
      have := hno y' hy'
      omega

/-- Above it they are the siblings of its ancestors. -/
theorem proofNode_outside {n r c q k t : ℕ} {Y : List ℕ} (h0 : Y ≠ []) (hY : ∀ y ∈ Y, y < 2 ^ r) (hq : r ≤ q) (ht : InTree n t (c * 2 ^ r)) :
    ProofNode n (Y.map (c * 2 ^ r + ·)) q k ↔ q < t ∧ k = sib (c * 2 ^ r) q := by
  rw [← proofNode_one ht]
  have e : ∀ y ∈ Y, (c * 2 ^ r + y) / 2 ^ q = c * 2 ^ r / 2 ^ q := by
    intro y hy
    obtain ⟨d, rfl⟩ := Nat.exists_eq_add_of_le hq
    rw [pow_add, ← Nat.div_div_eq_div_mul, ← Nat.div_div_eq_div_mul, Nat.mul_comm c, Nat.mul_add_div (by positivity),
      Nat.div_eq_of_lt (hY y hy), Nat.mul_div_cancel_left _ (by positivity), Nat.add_zero]
  obtain ⟨y0, hy0⟩ := List.exists_mem_of_ne_nil Y h0
  unfold ProofNode
  constructor
  · rintro ⟨j, b, hb, rfl, hj, ⟨a, ha, he⟩, hno⟩
    obtain ⟨y, hy, rfl⟩ := List.mem_map.1 ha
    refine ⟨j, b, hb, rfl, hj, ⟨_, List.mem_singleton_self _, by rw [← e y hy, he]⟩, fun a' ha' => ?_⟩
    rw [List.mem_singleton.1 ha', ← e y hy]
    exact hno _ ha
  · rintro ⟨j, b, hb, rfl, hj, ⟨a, ha, he⟩, hno⟩
    rw [List.mem_singleton.1 ha] at he
    refine ⟨j, b, hb, rfl, hj, ⟨_, List.mem_map_of_mem hy0, by rw [e y0 hy0, he]⟩, fun a' ha' => ?_⟩
    obtain ⟨y, hy, rfl⟩ := List.mem_map.1 ha'
    rw [e y hy]
    exact hno _ (List.mem_singleton_self _)

theorem proofNode_row {r q k : ℕ} {Y : List ℕ} (h : ProofNode (2 ^ r) Y q k) : q < r := by
  obtain ⟨j, b, -, -, hj, -⟩ := h
  unfold InForest at hj
  have : 2 ^ (q + 1) ≤ 2 ^ r := le_trans (Nat.le_mul_of_pos_left _ (by omega)) hj
  have := (Nat.pow_le_pow_iff_right (by omega : 1 < 2)).1 this
  omega

/-- There is a forest with these leaves. -/
theorem alone (B : List H) (hn : B.Nodup) (hl : B.length ≤ 2 ^ 62) : ∃ s st, Ram.Run s st ∧ Ram.Represents s B := by
  have hL0 : Ram.Represents (Ram.mk 0 : RamForest H) [] := Ram.mk_inv.represents (f := leafFn HashOps.zero []) (by omega)
  have hmap : (B.map fun x => ((x, false) : Leaf H)).map Prod.fst = B := by
    rw [List.map_map]
    exact List.map_id _
  obtain ⟨u, s', -, e2, e3⟩ := C56_order (Ram.mk 0) [] .empty [] hL0 (B.map fun x => (x, false)) [] (by
    rw [hmap]
    refine ⟨List.Pairwise.nil, by simp, hn, ?_, by simp, ?_⟩
    · intro x hx
      simp [survivors] at hx
    · simpa using hl)
  rw [hmap] at e3
  exact ⟨s', _, e2, e3⟩

end Shelf

open Shelf

/-- C88: the proof of leaves below one node `(r, c)` is the proof given by any forest that holds just the leaves below this node, followed by the
siblings of the node and its ancestors. -/
theorem C88_split (F F0 : RamForest H) (st st0 : List (UndoBatch H × RamForest H)) (h : Ram.Run F st) (h0 : Ram.Run F0 st0) (L B : List H)
    (hL : Ram.Represents F L) (hL0 : Ram.Represents F0 B) (r c : ℕ) (hc : InForest L.length r c)
    (hB : B = (L.drop (c * 2 ^ r)).take (2 ^ r)) (hashes : List H) (hne : hashes ≠ []) (pf0 : BatchProof H)
    (hp0 : Acc.prove Ram.vt F0 hashes = .ok (some pf0)) :
    ∃ pf t, Acc.prove Ram.vt F hashes = .ok (some pf) ∧ pf.targets = pf0.targets.map (c * 2 ^ r + ·) ∧ InTree L.length t (c * 2 ^ r) ∧ r ≤ t ∧
      pf.hashes = pf0.hashes ++ (List.range (t - r)).map fun d => node L (r + d) (sib (c * 2 ^ r) (r + d)) := by
  have hpos : 0 < 2 ^ r := by positivity
  have hc' : c * 2 ^ r + 2 ^ r ≤ L.length := by unfold InForest at hc; rw [Nat.add_mul] at hc; omega
  have hlen : B.length = 2 ^ r := by rw [hB, List.length_take, List.length_drop]; omega
  have hget : ∀ y < 2 ^ r, B[y]? = L[c * 2 ^ r + y]? := by
    intro y hy
    rw [hB, List.getElem?_take_of_lt hy, List.getElem?_drop]
  obtain ⟨nodes0, hP0⟩ := Proof.of h0 hL0 hp0
  have hY : ∀ y ∈ pf0.targets, y < 2 ^ r := by rw [← hlen]; exact hP0.lt
  have hT : (pf0.targets.map (c * 2 ^ r + ·)).map (fun t => L[t]?) = hashes.map some := by
    rw [← hP0.targets, List.map_map]
    apply List.map_congr_left
    intro y hy
    exact (hget y (hY y hy)).symm
  have hY0 : pf0.targets ≠ [] := by
    intro hc
    have := hP0.targets
    rw [hc] at this
    exact hne (List.map_eq_nil_iff.1 this.symm)
  obtain ⟨q, g1, g2, -⟩ := C22_prove F st h L hL hashes
  obtain ⟨q0, k1, k2, -⟩ := C22_prove F0 st0 h0 B hL0 hashes
  have hq0 : q0 = some pf0 := by rw [k1] at hp0; exact Except.ok.inj hp0
  obtain ⟨pf, rfl⟩ := Option.isSome_iff_exists.1 (g2.2 ⟨(k2.1 (by rw [hq0]; rfl)).1, fun x hx => by
    have : some x ∈ (pf0.targets.map (c * 2 ^ r + ·)).map (fun t => L[t]?) := by rw [hT]; exact List.mem_map_of_mem hx
    obtain ⟨t, -, ht⟩ := List.mem_map.1 this
    exact List.mem_of_getElem? ht⟩)
  obtain ⟨nodes, hP⟩ := Proof.of h hL g1
  obtain ⟨L0, hL1, hnd, -⟩ := C16_represents F st h
  obtain rfl := hL.unique hL1
  have htar : pf.targets = pf0.targets.map (c * 2 ^ r + ·) := targets_eq hnd hP.targets hT
  obtain ⟨t, ht⟩ := exists_tree (show c * 2 ^ r < L.length by omega)
  have hrt : r ≤ t := (inForest_iff_le ht).1 (by rw [Nat.mul_div_cancel _ hpos]; exact hc)
  refine ⟨pf, t, g1, htar, ht, hrt, ?_⟩
  have hn : nodes = nodes0.map (fun a => (a.1, c * 2 ^ (r - a.1) + a.2)) ++ (List.range (t - r)).map fun d => (r + d, sib (c * 2 ^ r) (r + d)) := by
    refine ext hP.lex ?_ ?_
    · rw [List.pairwise_append]
      refine ⟨?_, ?_, ?_⟩
      · rw [List.pairwise_map]
        refine hP0.lex.imp ?_
        rintro ⟨q, k⟩ ⟨q', k'⟩ hl
        unfold Shelf.Lex at hl ⊢
        dsimp only at hl ⊢
        rcases hl with hl | ⟨rfl, hl⟩
        · exact .inl hl
        · exact .inr ⟨rfl, by omega⟩
      · rw [List.pairwise_map]
        exact List.pairwise_lt_range.imp fun hl => .inl (by dsimp only; omega)
      · intro a ha b hb
        obtain ⟨⟨q, k⟩, hm, rfl⟩ := List.mem_map.1 ha
        obtain ⟨d, -, rfl⟩ := List.mem_map.1 hb
        have := proofNode_row (hlen ▸ (hP0.mem q k).1 hm)
        exact .inl (by dsimp only; omega)
    · rintro ⟨q, k⟩
      rw [hP.mem, htar, List.mem_append, List.mem_map, List.mem_map]
      rcases Nat.lt_or_ge q r with hq | hq
      · rw [proofNode_inside hc hY hq]
        constructor
        · rintro ⟨k0, rfl, hk⟩
          exact .inl ⟨(q, k0), (hP0.mem q k0).2 (hlen.symm ▸ hk), rfl⟩
        · rintro (⟨⟨q', k'⟩, hm, e⟩ | ⟨d, -, e⟩)
          · simp only [Prod.mk.injEq] at e
            obtain ⟨rfl, rfl⟩ := e
            exact ⟨k', rfl, hlen ▸ (hP0.mem q' k').1 hm⟩
          · simp only [Prod.mk.injEq] at e
            omega
      · rw [proofNode_outside hY0 hY hq ht]
        constructor
        · rintro ⟨h1, rfl⟩
          exact .inr ⟨q - r, List.mem_range.2 (by omega), by rw [show r + (q - r) = q by omega]⟩
        · rintro (⟨⟨q', k'⟩, hm, e⟩ | ⟨d, hd, e⟩)
          · simp only [Prod.mk.injEq] at e
            have := proofNode_row (hlen ▸ (hP0.mem q' k').1 hm)
            omega
          · simp only [Prod.mk.injEq] at e
            obtain ⟨rfl, rfl⟩ := e
            have := List.mem_range.1 hd
            exact ⟨by omega, rfl⟩
  rw [hP.hashes, hn, List.map_append, List.map_map, List.map_map, hP0.hashes]
  congr 1
  apply List.map_congr_left
  rintro ⟨q, k⟩ hm
  have hpn := (hP0.mem q k).1 hm
  rw [hlen] at hpn
  have hq := proofNode_row hpn
  have hk : k < 2 ^ r / 2 ^ q := ProofNode.inn hpn
  have hp2 : 2 ^ r = 2 ^ (r - q) * 2 ^ q := by rw [← pow_add]; congr 1; omega
  rw [hp2, Nat.mul_div_cancel _ (by positivity)] at hk
  show node L q (c * 2 ^ (r - q) + k) = node B q k
  apply mt_shift
  intro y hy
  have hin : k * 2 ^ q + y < 2 ^ r := by
    have h1 : (k + 1) * 2 ^ q ≤ 2 ^ (r - q) * 2 ^ q := Nat.mul_le_mul_right _ hk
    rw [Nat.add_mul, ← hp2] at h1
    omega
  unfold leafFn
  rw [List.getD_eq_getElem?_getD, List.getD_eq_getElem?_getD, hget _ hin]
  congr 2
  rw [Nat.add_mul, Nat.mul_assoc, ← hp2, Nat.add_assoc]

/-- C88 for proofs of any number of leaves of an intact subtree, over any number of calls: the old and the new proof begin with the same hashes, those
from inside the subtree. Of the others there is one for each row from `r` to the top of the tree, before and after. -/
theorem C88_batch (s : RamForest H) (st : List (UndoBatch H × RamForest H)) (h : Ram.Run s st) (L : List H) (hL : Ram.Represents s L)
    (cs : List (List (Leaf H) × List ℕ)) (hv : Ram.ValidCalls L cs) (r : ℕ) (B : List H) (hl : B.length = 2 ^ r) (hB : Below L r B)
    (hb : Spares B L cs) (hashes : List H) (hne : hashes ≠ []) (hd : hashes.Nodup) (hin : ∀ x ∈ hashes, x ∈ B) :
    ∃ s' L' pf pf' inner outer outer' c c' t t', Ram.calls cs s = .ok s' ∧ Ram.Represents s' L' ∧
      Acc.prove Ram.vt s hashes = .ok (some pf) ∧ Acc.prove Ram.vt s' hashes = .ok (some pf') ∧
      pf.hashes = inner ++ outer ∧ pf'.hashes = inner ++ outer' ∧
      InTree L.length t c ∧ outer.length + r = t ∧ (∀ a ∈ pf.targets, a / 2 ^ r = c / 2 ^ r) ∧
      InTree L'.length t' c' ∧ outer'.length + r = t' ∧ ∀ a ∈ pf'.targets, a / 2 ^ r = c' / 2 ^ r := by
  obtain ⟨s', st', L', e1, e2, e3, e4⟩ := C88_calls s st h L hL cs hv r B hB hb
  have hpos : 0 < 2 ^ r := by positivity
  have cut : ∀ (M : List H) (j : ℕ), InForest M.length r j → (∀ y < 2 ^ r, M[j * 2 ^ r + y]? = B[y]?) → B = (M.drop (j * 2 ^ r)).take (2 ^ r) := by
    intro M j hj hy
    apply List.ext_getElem?
    intro y
    rcases Nat.lt_or_ge y (2 ^ r) with hlt | hge
    · rw [← hy y hlt, List.getElem?_take_of_lt hlt, List.getElem?_drop]
    · rw [List.getElem?_eq_none (by omega), List.getElem?_eq_none (by rw [List.length_take]; omega)]
  obtain ⟨i, hi, hiy⟩ := hB
  obtain ⟨j, hj, hjy⟩ := e4
  have c1 := cut L i hi hiy
  have c2 := cut L' j hj hjy
  obtain ⟨L0, hL0, hnd, hlen⟩ := C16_represents s st h
  obtain rfl := hL.unique hL0
  have hBn : B.Nodup := by
    rw [c1]
    exact (hnd.sublist (List.drop_sublist _ _)).sublist (List.take_sublist _ _)
  have hBl : B.length ≤ 2 ^ 62 := by
    unfold InForest at hi
    rw [Nat.add_mul] at hi
    omega
  obtain ⟨F0, st0, f1, f2⟩ := alone B hBn hBl
  obtain ⟨q, g1, g2, -⟩ := C22_prove F0 st0 f1 B f2 hashes
  obtain ⟨pf0, rfl⟩ := Option.isSome_iff_exists.1 (g2.2 ⟨hd, hin⟩)
  obtain ⟨n0, hP0⟩ := Proof.of f1 f2 g1
  obtain ⟨pf, t, a1, a2, a3, a4, a5⟩ := C88_split s F0 st st0 h f1 L B hL f2 r i hi c1 hashes hne pf0 g1
  obtain ⟨pf', t', b1, b2, b3, b4, b5⟩ := C88_split s' F0 st' st0 e2 f1 L' B e3 f2 r j hj c2 hashes hne pf0 g1
  have key : ∀ (T : List ℕ) (m : ℕ), T = pf0.targets.map (m * 2 ^ r + ·) → ∀ a ∈ T, a / 2 ^ r = m * 2 ^ r / 2 ^ r := by
    rintro T m rfl a ha
    obtain ⟨y, hy, rfl⟩ := List.mem_map.1 ha
    have := hP0.lt y hy
    rw [Nat.mul_comm, Nat.mul_add_div hpos, Nat.div_eq_of_lt (by omega), Nat.mul_div_cancel_left _ hpos, Nat.add_zero]
  refine ⟨s', L', pf, pf', pf0.hashes, _, _, i * 2 ^ r, j * 2 ^ r, t, t', e1, e3, a1, b1, a5, b5, a3, ?_, key _ _ a2, b3, ?_, key _ _ b2⟩
  · rw [List.length_map, List.length_range]; omega
  · rw [List.length_map, List.length_range]; omega

/-! ## Concrete cases -/

namespace Examples

attribute [local instance] toyOps

/-- C88: the proof of two of the last four of 16 leaves before and after a block, and by the four leaves alone. -/
theorem _root_.Utreexo.C88_batch_case :
    (do let s ← Ram.calls [((List.range 16).map fun i => (10 + i, false), [])] (Ram.mk 0)
        let s' ← Ram.calls [([(50, false)], [0, 1, 5, 9])] s
        let s0 ← Ram.calls [([(22, false), (23, false), (24, false), (25, false)], [])] (Ram.mk 0)
        let a ← Acc.prove Ram.vt s [25, 23]
        let b ← Acc.prove Ram.vt s' [25, 23]
        let c ← Acc.prove Ram.vt s0 [25, 23]
        return [a.map BatchProof.hashes, b.map BatchProof.hashes, c.map BatchProof.hashes]) =
    .ok [some [22, 24, 18393111, 10375438111], some [22, 24], some [22, 24]] := by decide +kernel

end Examples

end Utreexo
