import Verif.Props.Wire
import Verif.Proof.Size

/-!
# The size of proofs

C70: a proof for a batch of leaves holds no hash that the verifier could compute, and no other choice of nodes does with fewer.
-/

set_option linter.unusedSectionVars false

namespace Utreexo
open Spec Equiv

section Claims

variable {H : Type} [DecidableEq H] [HashOps H]

/-- What is used of `C22_prove`. -/
theorem prove_nodes {s : RamForest H} {st : List (UndoBatch H × RamForest H)} (h : Ram.Run s st) {L : List H}
    (hL : Ram.Represents s L) {hashes : List H} {p : BatchProof H} (hp : Acc.prove Ram.vt s hashes = .ok (some p)) :
    p.targets.Nodup ∧ (∀ t ∈ p.targets, t < L.length) ∧ p.targets.length = hashes.length ∧
      (∀ t, t ∈ p.targets ↔ ∃ x ∈ hashes, L[t]? = some x) ∧
      ∃ nodes : List (ℕ × ℕ), nodes.Nodup ∧ (∀ r k, (r, k) ∈ nodes ↔ ProofNode L.length p.targets r k) ∧
        p.hashes = nodes.map fun a => merkle HashOps.ph (leafFn HashOps.zero L) a.1 a.2 := by
  obtain ⟨r, e1, e2, e3⟩ := C22_prove s st h L hL hashes
  rw [hp] at e1
  obtain rfl := Except.ok.inj e1
  obtain ⟨g1, g2, g3, nodes, g4, g5, g6⟩ := e3 p rfl
  obtain ⟨L', hL', hnd, -⟩ := C16_represents s st h
  obtain rfl := hL.unique hL'
  have hlt : ∀ t ∈ p.targets, t < L.length := by
    intro t ht
    have : L[t]? ∈ hashes.map some := by rw [← g1]; exact List.mem_map_of_mem ht
    obtain ⟨x, -, hx⟩ := List.mem_map.1 this
    by_contra hc
    rw [List.getElem?_eq_none (by omega)] at hx; cases hx
  refine ⟨g3.nodup_iff.1 (g2.imp fun h => by omega), hlt, by simpa using congrArg List.length g1, ?_, nodes,
    g4.imp fun h e => by rw [e] at h; omega, g5, g6⟩
  intro t
  constructor
  · intro ht
    have : L[t]? ∈ hashes.map some := by rw [← g1]; exact List.mem_map_of_mem ht
    obtain ⟨x, hx, e⟩ := List.mem_map.1 this
    exact ⟨x, hx, e.symm⟩
  · rintro ⟨x, hx, e⟩
    have : some x ∈ p.targets.map fun t => L[t]? := by rw [g1]; exact List.mem_map_of_mem hx
    obtain ⟨t', ht', e'⟩ := List.mem_map.1 this
    rwa [(List.getElem?_inj (hlt t' ht') hnd).1 (e'.trans e.symm)] at ht'

/-- C70: the hashes of a proof are those of nodes which serve as a proof, and any nodes that serve are at least as many. -/
theorem C70_minimal (s : RamForest H) (st : List (UndoBatch H × RamForest H)) (h : Ram.Run s st) (L : List H)
    (hL : Ram.Represents s L) (hashes : List H) (p : BatchProof H) (hp : Acc.prove Ram.vt s hashes = .ok (some p)) :
    (∃ nodes : List (ℕ × ℕ), Serves L.length p.targets nodes ∧
      p.hashes = nodes.map fun a => merkle HashOps.ph (leafFn HashOps.zero L) a.1 a.2) ∧
    ∀ S : List (ℕ × ℕ), Serves L.length p.targets S → p.hashes.length ≤ S.length := by
  obtain ⟨-, -, -, -, nodes, h1, h2, h3⟩ := prove_nodes h hL hp
  refine ⟨⟨nodes, Size.serves h2, h3⟩, fun S hS => ?_⟩
  rw [h3, List.length_map]
  exact Size.minimal h1 (fun r k => (h2 r k).1) hS

/-- C70: no more hashes than the heights of the trees in which the leaves lie add up to, nor than there are other leaves. -/
theorem C70_bound (s : RamForest H) (st : List (UndoBatch H × RamForest H)) (h : Ram.Run s st) (L : List H)
    (hL : Ram.Represents s L) (hashes : List H) (p : BatchProof H) (hp : Acc.prove Ram.vt s hashes = .ok (some p)) :
    (∀ height : ℕ → ℕ, (∀ t ∈ p.targets, InTree L.length (height t) t) → p.hashes.length ≤ (p.targets.map height).sum) ∧
    p.hashes.length ≤ hashes.length * Nat.log2 L.length ∧ p.hashes.length + hashes.length ≤ L.length := by
  obtain ⟨h0, hb, hlen, -, nodes, h1, h2, h3⟩ := prove_nodes h hL hp
  have key : ∀ height : ℕ → ℕ, (∀ t ∈ p.targets, InTree L.length (height t) t) → p.hashes.length ≤ (p.targets.map height).sum := by
    intro height hh
    rw [h3, List.length_map]
    exact Size.le_heights h1 (fun r k => (h2 r k).1) height hh
  refine ⟨key, ?_, ?_⟩
  · have hex : ∀ t, ∃ r, t ∈ p.targets → InTree L.length r t := by
      intro t
      by_cases ht : t ∈ p.targets
      · obtain ⟨r, hr⟩ := exists_tree (hb t ht)
        exact ⟨r, fun _ => hr⟩
      · exact ⟨0, fun h => absurd h ht⟩
    choose height hh using hex
    refine (key height hh).trans ?_
    rw [← hlen]
    have : ∀ x ∈ p.targets.map height, x ≤ Nat.log2 L.length := by
      intro x hx
      obtain ⟨t, ht, rfl⟩ := List.mem_map.1 hx
      have h1 := Nat.ge_two_pow_of_testBit (hh t ht).1
      have h2 := hb t ht
      exact (Nat.le_log2 (by omega)).2 h1
    simpa using List.sum_le_card_nsmul _ _ this
  · rw [← hlen, h3, List.length_map]
    exact Size.le_rest h1 (fun r k => (h2 r k).1) h0 hb

/-- C70: all leaves together need no hash at all. -/
theorem C70_all (s : RamForest H) (st : List (UndoBatch H × RamForest H)) (h : Ram.Run s st) (L : List H)
    (hL : Ram.Represents s L) (hashes : List H) (p : BatchProof H) (hp : Acc.prove Ram.vt s hashes = .ok (some p))
    (hall : ∀ x ∈ L, x ∈ hashes) : p.hashes = [] := by
  obtain ⟨L', hL', hnd, -⟩ := C16_represents s st h
  obtain rfl := hL.unique hL'
  have h1 := (C70_bound s st h L hL hashes p hp).2.2
  have h2 := (hnd.subperm hall).length_le
  exact List.length_eq_zero_iff.1 (by omega)

/-- C70: one leaf needs exactly as many hashes as its tree is high. -/
theorem C70_single (s : RamForest H) (st : List (UndoBatch H × RamForest H)) (h : Ram.Run s st) (L : List H)
    (hL : Ram.Represents s L) (x : H) (a t : ℕ) (hx : L[a]? = some x) (ht : InTree L.length t a) (p : BatchProof H)
    (hp : Acc.prove Ram.vt s [x] = .ok (some p)) : p.hashes.length = t := by
  obtain ⟨L', hL', hnd, -⟩ := C16_represents s st h
  obtain rfl := hL.unique hL'
  obtain ⟨h0, hb, hlen, hmem, nodes, h1, h2, h3⟩ := prove_nodes h hL hp
  have he : p.targets = [a] := by
    obtain ⟨b, hb'⟩ := List.length_eq_one_iff.1 hlen
    obtain ⟨y, hy, e⟩ := (hmem b).1 (by rw [hb']; simp)
    obtain rfl := List.mem_singleton.1 hy
    rw [hb', (List.getElem?_inj (hb b (by rw [hb']; simp)) hnd).1 (e.trans hx.symm)]
  apply Nat.le_antisymm
  · have := (C70_bound s st h L hL [x] p hp).1 (fun _ => t) (by rw [he]; simpa using ht)
    simpa [he] using this
  · rw [h3, List.length_map]
    have hone : ∀ r, r < t → _ := fun r => Size.single ht (r := r)
    have hsub : ((List.range t).map fun r => (r, 2 * (a / 2 ^ (r + 1)) + (1 - a / 2 ^ r % 2))).Subperm nodes := by
      apply List.Nodup.subperm
      · refine List.Nodup.map_on ?_ List.nodup_range
        intro i _ j _ e
        exact (Prod.mk.inj e).1
      · rintro ⟨r, k⟩ hm
        obtain ⟨q, hq, e⟩ := List.mem_map.1 hm
        rw [← e, h2, he]
        exact hone q (List.mem_range.1 hq)
    simpa using hsub.length_le

/-- C70: leaves proved together never need more hashes than proved apart. -/
theorem C70_together (s : RamForest H) (st : List (UndoBatch H × RamForest H)) (h : Ram.Run s st) (A B U : List H)
    (hU : ∀ x, x ∈ U ↔ x ∈ A ∨ x ∈ B) (p q u : BatchProof H) (hp : Acc.prove Ram.vt s A = .ok (some p))
    (hq : Acc.prove Ram.vt s B = .ok (some q)) (hu : Acc.prove Ram.vt s U = .ok (some u)) :
    u.hashes.length ≤ p.hashes.length + q.hashes.length := by
  obtain ⟨L, hL, -⟩ := C16_represents s st h
  obtain ⟨-, -, -, m1, N1, -, n1, k1⟩ := prove_nodes h hL hp
  obtain ⟨-, -, -, m2, N2, -, n2, k2⟩ := prove_nodes h hL hq
  obtain ⟨-, -, -, m3, N3, d3, n3, k3⟩ := prove_nodes h hL hu
  rw [k1, k2, k3, List.length_map, List.length_map, List.length_map]
  refine Size.union d3 n1 n2 (fun r k => (n3 r k).1) ?_ ?_ ?_
  · intro t ht
    obtain ⟨x, hx, e⟩ := (m3 t).1 ht
    rcases (hU x).1 hx with hx | hx
    · exact .inl ((m1 t).2 ⟨x, hx, e⟩)
    · exact .inr ((m2 t).2 ⟨x, hx, e⟩)
  · intro t ht
    obtain ⟨x, hx, e⟩ := (m1 t).1 ht
    exact (m3 t).2 ⟨x, (hU x).2 (.inl hx), e⟩
  · intro t ht
    obtain ⟨x, hx, e⟩ := (m2 t).1 ht
    exact (m3 t).2 ⟨x, (hU x).2 (.inr hx), e⟩

/-- C70: the number of hashes, of leaves, of nodes to compute and of trees concerned. -/
theorem C70_count (n : ℕ) (hn : n ≤ 2 ^ 62) (targets : List ℕ) (hs : targets.Pairwise (· < ·)) (hb : ∀ t ∈ targets, t < n)
    (height : ℕ → ℕ) (hh : ∀ t ∈ targets, InTree n (height t) t) (pf comp : List ℕ)
    (h : St.proofPositions n targets = .ok (pf, comp)) :
    pf.length + 2 * targets.length = comp.length + (targets.map height).dedup.length := by
  classical
  obtain ⟨pf', comp', h1, h2, h3, h4, h5⟩ := C08_proofPositions n hn targets hs hb
  rw [h] at h1
  obtain ⟨rfl, rfl⟩ := Prod.mk.inj (Except.ok.inj h1)
  have hR : n ≤ 2 ^ St.numRows n := le_two_pow_numRows (by omega)
  set all := Finset.range (n + 1) ×ˢ Finset.range (n + 1) with hall
  have hin : ∀ {r k}, InForest n r k → (r, k) ∈ all := by
    intro r k hf
    have h1 : 2 ^ r ≤ n := by
      unfold InForest at hf
      exact (Nat.le_mul_of_pos_left _ (by omega)).trans hf
    have h2 : k < n := by
      unfold InForest at hf
      have := Nat.le_mul_of_pos_right (k + 1) (Nat.two_pow_pos r)
      omega
    have h3 : r < 2 ^ r := Nat.lt_two_pow_self
    simp only [hall, Finset.mem_product, Finset.mem_range]
    omega
  have key := Size.count (n := n) (T := targets) (C := all.filter fun a => Above n targets a.1 a.2)
    (P := all.filter fun a => ProofNode n targets a.1 a.2)
    (fun r k => by rw [Finset.mem_filter]; exact ⟨fun h => h.2, fun h => ⟨hin h.1, h⟩⟩)
    (fun r k => by
      rw [Finset.mem_filter]
      exact ⟨fun h => h.2, fun h => ⟨hin (Size.inForest_of_parent (Size.proofNode_iff.1 h).1), h⟩⟩)
    (hs.imp fun h => by omega) height hh
  have pos_inj : ∀ {r i q j}, InForest n r i → InForest n q j → posOf (St.numRows n) r i = posOf (St.numRows n) q j → (r, i) = (q, j) := by
    intro r i q j h1 h2 e
    obtain ⟨rfl, rfl⟩ := posOf_inj (inForest_lt hR h1).2 (inForest_lt hR h2).2 e
    rfl
  have c1 : comp.length = (all.filter fun a => Above n targets a.1 a.2).card := by
    rw [← List.toFinset_card_of_nodup (h3.imp fun h => by omega)]
    symm
    apply Finset.card_bij (fun a _ => posOf (St.numRows n) a.1 a.2)
    · rintro ⟨r, k⟩ hm
      obtain ⟨-, hf, a, ha, e⟩ := Finset.mem_filter.1 hm
      dsimp only at hf e ⊢
      subst e
      exact List.mem_toFinset.2 ((h4 _).2 ⟨r, a, ha, hf, rfl⟩)
    · rintro ⟨r, k⟩ hm ⟨q, i⟩ hm' e
      exact pos_inj (Finset.mem_filter.1 hm).2.1 (Finset.mem_filter.1 hm').2.1 e
    · intro x hx
      obtain ⟨r, a, ha, hf, rfl⟩ := (h4 x).1 (List.mem_toFinset.1 hx)
      exact ⟨(r, a / 2 ^ r), Finset.mem_filter.2 ⟨hin hf, hf, a, ha, rfl⟩, rfl⟩
  have c2 : pf.length = (all.filter fun a => ProofNode n targets a.1 a.2).card := by
    rw [← List.toFinset_card_of_nodup (h2.imp fun h => by omega)]
    symm
    apply Finset.card_bij (fun a _ => posOf (St.numRows n) a.1 a.2)
    · rintro ⟨r, k⟩ hm
      obtain ⟨-, j, b, hb, e, hf, ha, hno⟩ := Finset.mem_filter.1 hm
      dsimp only at e hno
      subst e
      exact List.mem_toFinset.2 ((h5 _).2 ⟨r, j, b, hb, hf, ha, hno, rfl⟩)
    · rintro ⟨r, k⟩ hm ⟨q, i⟩ hm' e
      exact pos_inj (Size.inForest_of_parent (Size.proofNode_iff.1 (Finset.mem_filter.1 hm).2).1)
        (Size.inForest_of_parent (Size.proofNode_iff.1 (Finset.mem_filter.1 hm').2).1) e
    · intro x hx
      obtain ⟨r, j, b, hb, hf, ha, hno, rfl⟩ := (h5 x).1 (List.mem_toFinset.1 hx)
      have hp : ProofNode n targets r (2 * j + (1 - b)) := ⟨j, b, hb, rfl, hf, ha, hno⟩
      exact ⟨(r, 2 * j + (1 - b)), Finset.mem_filter.2 ⟨hin (Size.inForest_of_parent (Size.proofNode_iff.1 hp).1), hp⟩, rfl⟩
  rw [c1, c2]
  exact key

end Claims

/-- C70: the size in bytes of a proof that is sent. -/
theorem C70_bytes [HashOps Hash32] (s : RamForest Hash32) (st : List (UndoBatch Hash32 × RamForest Hash32)) (h : Ram.Run s st)
    (L : List Hash32) (hL : Ram.Represents s L) (hashes : List Hash32) (p : BatchProof Hash32)
    (hp : Acc.prove Ram.vt s hashes = .ok (some p)) (big : Bool) (old : List Byte)
    (hsmall : 8 + hashes.length * (4 + 32 * Nat.log2 L.length) < 2 ^ 31) (h32 : L.length ≤ 2 ^ 32) :
    ∃ bytes, Batch.serialize big p old = .ok bytes ∧ bytes.length = 8 + 4 * hashes.length + 32 * p.hashes.length ∧
      bytes.length ≤ 8 + hashes.length * (4 + 32 * Nat.log2 L.length) := by
  obtain ⟨-, hb, hlen, -⟩ := prove_nodes h hL hp
  have h1 := (C70_bound s st h L hL hashes p hp).2.1
  have h2 : 8 + 4 * p.targets.length + 32 * p.hashes.length ≤ 8 + hashes.length * (4 + 32 * Nat.log2 L.length) := by
    rw [hlen]
    have : hashes.length * (4 + 32 * Nat.log2 L.length) = 4 * hashes.length + 32 * (hashes.length * Nat.log2 L.length) := by ring
    omega
  obtain ⟨bytes, k1, k2⟩ := C10_serialize_format big p old (by omega) (fun t ht => by have := hb t ht; omega)
  have k3 := k2.length
  rw [hlen] at k3 h2
  exact ⟨bytes, k1, k3, by omega⟩

/-- A thousand leaves of a million are well within the limit of `C70_bytes`. -/
example : 8 + 1000 * (4 + 32 * Nat.log2 1000000) < 2 ^ 31 := by decide +kernel

section Examples

attribute [local instance] toyOps

/-- A forest of nine leaves, and the hashes of the proof for some of them. -/
def sizesOf (hs : List ℕ) : Res (List ℕ) := do
  let (_, _, F) ← Ram.modify (Ram.mk 0) ((List.range 9).map fun i => (i + 1, false)) []
  match ← Acc.prove Ram.vt F hs with
  | some p => return p.hashes
  | none => .error .exc

/-- Two leaves each, the four of them together, all leaves, the single leaf of the lowest tree, and half of the tall tree. -/
theorem C70_cases : [sizesOf [1, 6], sizesOf [5, 3], sizesOf [1, 3, 5, 6], sizesOf [9, 8, 7, 6, 5, 4, 3, 2, 1], sizesOf [9],
    sizesOf [4, 3, 2, 1]] =
    [.ok [2, 5, 3041, 7081], .ok [4, 6, 1021, 7081], .ok [2, 4, 7081], .ok [], .ok [], .ok [5131811]] := by decide +kernel

/-- The numbers of `C70_count`: four targets of one tree, and two of two trees. -/
example : ((St.proofPositions 9 [0, 2, 4, 5]).map fun r => (r.1.length, r.2.length)) = .ok (3, 10) ∧
    ((St.proofPositions 9 [3, 8]).map fun r => (r.1.length, r.2.length)) = .ok (3, 5) := by decide +kernel

/-- A choice of nodes that serves but is not the smallest: the two leaves under node 1 of row 1. -/
example : Serves 4 [0] [(0, 1), (0, 2), (0, 3)] := by
  have inF : ∀ r k, InForest 4 r k → (r = 0 ∧ k < 4) ∨ (r = 1 ∧ k < 2) ∨ (r = 2 ∧ k = 0) := by
    intro r k h
    rw [inForest_iff] at h
    rcases r with _ | _ | _ | r
    · left; omega
    · right; left; omega
    · right; right; omega
    · have : 4 / 2 ^ (r + 1 + 1 + 1) = 0 := Nat.div_eq_of_lt (by rw [pow_succ, pow_succ, pow_succ]; have := Nat.two_pow_pos r; omega)
      omega
  constructor
  · intro r k hm ⟨_, a, ha, e⟩
    simp only [List.mem_cons, List.not_mem_nil, or_false, Prod.mk.injEq] at hm ha
    subst ha
    simp only [Nat.zero_div] at e
    omega
  · intro r k ⟨h1, a, ha, e⟩ h2
    simp only [List.mem_cons, List.not_mem_nil, or_false] at ha
    subst ha
    simp only [Nat.zero_div] at e
    subst e
    have : r = 2 := by
      rcases inF r 0 h1 with ⟨rfl, _⟩ | ⟨rfl, _⟩ | ⟨rfl, _⟩
      · exact absurd (by unfold InForest; decide) h2
      · exact absurd (by unfold InForest; decide) h2
      · rfl
    subst this
    exact .parent (by unfold InForest; decide)
      (.parent (by unfold InForest; decide) (.given (.inr ⟨rfl, by simp⟩)) (.given (.inl (by simp))))
      (.parent (by unfold InForest; decide) (.given (.inl (by simp))) (.given (.inl (by simp))))

end Examples

end Utreexo
