import Verif.Props.Exact
import Verif.Props.Later
import Verif.Proof.Shelf
import Verif.Proof.Settle

/-!
# C83: how long a proof stays good

A proof depends on the trees of its targets only: forests with the same trees above the targets give the same proof. After additions it is the
proof of the larger forest exactly as long as none of these trees has been merged into a taller one. From then on hashes are missing,
and a pollard accepts the old proof exactly if it has the nodes for them.
-/

set_option linter.unusedSectionVars false

namespace Utreexo
open Spec Equiv Pol

variable {H : Type} [DecidableEq H] [HashOps H]

namespace Shelf

/-- What `Prove` returns, with the nodes. -/
structure Proof (L : List H) (hashes : List H) (pf : BatchProof H) (nodes : List (ℕ × ℕ)) : Prop where
  targets : pf.targets.map (fun t => L[t]?) = hashes.map some
  sorted : pf.sorted.Pairwise (· < ·)
  perm : pf.sorted.Perm pf.targets
  lex : nodes.Pairwise Lex
  places : ProofNodes L.length pf.sorted nodes
  mem : ∀ r k, (r, k) ∈ nodes ↔ ProofNode L.length pf.targets r k
  hashes : pf.hashes = nodes.map fun a => node L a.1 a.2

theorem Proof.of {F : RamForest H} {st : List (UndoBatch H × RamForest H)} (h : Ram.Run F st) {L : List H} (hL : Ram.Represents F L)
    {hashes : List H} {pf : BatchProof H} (hp : Acc.prove Ram.vt F hashes = .ok (some pf)) : ∃ nodes, Proof L hashes pf nodes := by
  obtain ⟨r, e1, -, e3⟩ := C22_prove F st h L hL hashes
  rw [e1] at hp
  obtain ⟨g1, g2, g3, nodes, g4, g5, g6⟩ := e3 pf (Except.ok.inj hp)
  obtain ⟨L0, hL0, -, hlen⟩ := C16_represents F st h
  obtain rfl := hL.unique hL0
  refine ⟨nodes, g1, g2, g3, Shelf.lex hlen g4 g5, ⟨g4, fun r k => ?_⟩, g5, g6⟩
  rw [g5]
  unfold ProofNode
  simp only [g3.mem_iff]

theorem Proof.lt {L hashes : List H} {pf : BatchProof H} {nodes : List (ℕ × ℕ)} (h : Proof L hashes pf nodes) :
    ∀ t ∈ pf.targets, t < L.length := leaves_lt h.targets.symm

theorem targets_eq {L : List H} (hn : L.Nodup) : ∀ {T T' : List ℕ} {hs : List H}, T.map (fun t => L[t]?) = hs.map some →
    T'.map (fun t => L[t]?) = hs.map some → T = T'
  | [], [], _, _, _ => rfl
  | [], _ :: _, [], _, h => by simp at h
  | [], _ :: _, _ :: _, h, _ => by simp at h
  | _ :: _, [], [], h, _ => by simp at h
  | _ :: _, [], _ :: _, _, h => by simp at h
  | _ :: _, _ :: _, [], h, _ => by simp at h
  | a :: T, b :: T', x :: hs, h, h' => by
    simp only [List.map_cons, List.cons.injEq] at h h'
    rw [targets_eq hn h.2 h'.2]
    congr 1
    obtain ⟨ha, ha'⟩ := List.getElem?_eq_some_iff.1 h.1
    obtain ⟨hb, hb'⟩ := List.getElem?_eq_some_iff.1 h'.1
    exact (List.Nodup.getElem_inj_iff hn).1 (ha'.trans hb'.symm)

theorem perm_eq {T S S' : List ℕ} (h : S.Pairwise (· < ·)) (h' : S'.Pairwise (· < ·)) (p : S.Perm T) (p' : S'.Perm T) : S = S' :=
  Settle.sorted_ext h h' fun x => by rw [p.mem_iff, p'.mem_iff]

/-- A proof for one forest is one for another in which the same leaves lie below the ancestors of its targets. -/
theorem Proof.move {L L' hashes : List H} {pf : BatchProof H} {nodes : List (ℕ × ℕ)} (h : Proof L hashes pf nodes)
    (hin : ∀ a ∈ pf.targets, ∀ r, InForest L.length r (a / 2 ^ r) ↔ InForest L'.length r (a / 2 ^ r))
    (heq : ∀ a ∈ pf.targets, ∀ r x, InForest L.length r (a / 2 ^ r) → x / 2 ^ r = a / 2 ^ r → L[x]? = L'[x]?) :
    pf.targets.map (fun t => L'[t]?) = hashes.map some ∧ (∀ r k, (r, k) ∈ nodes ↔ ProofNode L'.length pf.targets r k) ∧
      pf.hashes = nodes.map fun a => node L' a.1 a.2 := by
  refine ⟨?_, ?_, ?_⟩
  · rw [← h.targets]
    apply List.map_congr_left
    intro t ht
    have := h.lt t ht
    exact (heq t ht 0 t (by rw [inForest_iff]; simpa using this) rfl).symm
  · intro r k
    rw [h.mem]
    exact node_congr hin r k
  · rw [h.hashes]
    apply List.map_congr_left
    rintro ⟨r, k⟩ hk
    obtain ⟨j, b, hb, e, hj, ⟨a, ha, he⟩, -⟩ := (h.mem r k).1 hk
    have hj' : a / 2 ^ (r + 1) = j := by
      rw [Nat.pow_succ, ← Nat.div_div_eq_div_mul, he]; omega
    apply mt_congr
    intro x hx
    have := heq a ha (r + 1) x (by rw [hj']; exact hj) (by rw [hj', Nat.pow_succ, ← Nat.div_div_eq_div_mul, hx]; omega)
    unfold leafFn
    rw [List.getD_eq_getElem?_getD, List.getD_eq_getElem?_getD, this]

theorem node_append {L adds : List H} {T : List ℕ} {r k : ℕ} (h : ProofNode L.length T r k) : node L r k = node (L ++ adds) r k := by
  apply mt_congr
  intro x hx
  have hin : k < L.length / 2 ^ r := ProofNode.inn h
  have h1 : (k + 1) * 2 ^ r ≤ L.length := (Nat.le_div_iff_mul_le (by positivity)).1 hin
  have h2 := Nat.lt_mul_div_succ x (show 0 < 2 ^ r by positivity)
  rw [hx, mul_comm] at h2
  unfold leafFn
  rw [List.getD_eq_getElem?_getD, List.getD_eq_getElem?_getD, List.getElem?_append_left (by omega)]

theorem Proof.unique {L hashes : List H} (hn : L.Nodup) {pf pf' : BatchProof H} {nodes nodes' : List (ℕ × ℕ)}
    (h' : Proof L hashes pf' nodes') (h1 : pf.targets.map (fun t => L[t]?) = hashes.map some) (h2 : pf.sorted.Pairwise (· < ·))
    (h3 : pf.sorted.Perm pf.targets) (h4 : nodes.Pairwise Lex) (h5 : ∀ r k, (r, k) ∈ nodes ↔ ProofNode L.length pf.targets r k)
    (h6 : pf.hashes = nodes.map fun a => node L a.1 a.2) : pf' = pf := by
  have e1 := targets_eq hn h'.targets h1
  have e2 : pf'.sorted = pf.sorted := perm_eq h'.sorted h2 h'.perm (by rw [e1]; exact h3)
  have e3 : nodes' = nodes := ext h'.lex h4 (fun a => by rw [h5 a.1 a.2, ← e1]; exact h'.mem a.1 a.2)
  have e4 : pf'.hashes = pf.hashes := by rw [h'.hashes, h6, e3]
  cases pf; cases pf'; simp_all

end Shelf

open Shelf

/-- C83: a proof is a matter of the trees of its targets. If in another forest each target has the same ancestors with the same leaves below
them, `Prove` returns the same proof there. The two forests need not have anything to do with each other. -/
theorem C83_same (F F' : RamForest H) (st st' : List (UndoBatch H × RamForest H)) (h : Ram.Run F st) (h' : Ram.Run F' st') (L L' : List H)
    (hL : Ram.Represents F L) (hL' : Ram.Represents F' L') (hashes : List H) (pf : BatchProof H)
    (hp : Acc.prove Ram.vt F hashes = .ok (some pf))
    (hin : ∀ a ∈ pf.targets, ∀ r, InForest L.length r (a / 2 ^ r) ↔ InForest L'.length r (a / 2 ^ r))
    (heq : ∀ a ∈ pf.targets, ∀ r x, InForest L.length r (a / 2 ^ r) → x / 2 ^ r = a / 2 ^ r → L[x]? = L'[x]?) :
    Acc.prove Ram.vt F' hashes = .ok (some pf) := by
  obtain ⟨nodes, hP⟩ := Proof.of h hL hp
  obtain ⟨m1, m2, m3⟩ := hP.move hin heq
  obtain ⟨L0, hL0, hnd', -⟩ := C16_represents F' st' h'
  obtain rfl := hL'.unique hL0
  obtain ⟨r, e1, e2, -⟩ := C22_prove F st h L hL hashes
  obtain ⟨r', e1', e2', -⟩ := C22_prove F' st' h' L' hL' hashes
  have hr : r = some pf := by rw [e1] at hp; exact Except.ok.inj hp
  have hsome : r'.isSome := by
    rw [e2']
    refine ⟨(e2.1 (by rw [hr]; rfl)).1, ?_⟩
    intro x hx
    have : some x ∈ pf.targets.map (fun t => L'[t]?) := by rw [m1]; exact List.mem_map_of_mem hx
    obtain ⟨t, -, ht⟩ := List.mem_map.1 this
    exact List.mem_of_getElem? ht
  obtain ⟨pf', rfl⟩ := Option.isSome_iff_exists.1 hsome
  obtain ⟨nodes', hP'⟩ := Proof.of h' hL' e1'
  rw [e1', hP'.unique hnd' m1 hP.sorted hP.perm hP.lex m2 m3]

/-- C83 for additions: `Prove` on the larger forest returns the same proof exactly if every tree with a target is still one of its trees, that
is, has not been merged into a taller one. -/
theorem C83_add (F F' : RamForest H) (st st' : List (UndoBatch H × RamForest H)) (h : Ram.Run F st) (h' : Ram.Run F' st') (L adds : List H)
    (hL : Ram.Represents F L) (hL' : Ram.Represents F' (L ++ adds)) (hashes : List H) (pf : BatchProof H)
    (hp : Acc.prove Ram.vt F hashes = .ok (some pf)) :
    Acc.prove Ram.vt F' hashes = .ok (some pf) ↔
      ∀ a ∈ pf.targets, ∀ t, InTree L.length t a → InTree (L.length + adds.length) t a := by
  obtain ⟨nodes, hP⟩ := Proof.of h hL hp
  have hle : L.length ≤ L.length + adds.length := by omega
  constructor
  · intro hp' a ha t ht
    by_contra hc
    obtain ⟨r, k, k1, k2⟩ := extra hle hP.lt ha ht hc
    obtain ⟨nodes', hP'⟩ := Proof.of h' hL' hp'
    have hm : ∀ b, b ∈ nodes → b ∈ nodes' := by
      rintro ⟨q, x⟩ hb
      rw [hP'.mem, List.length_append]
      exact node_mono hle ((hP.mem q x).1 hb)
    have hs : ((r, k) :: nodes) ⊆ nodes' := by
      intro b hb
      rcases List.mem_cons.1 hb with rfl | hb
      · rw [hP'.mem, List.length_append]; exact k1
      · exact hm b hb
    have hn : ((r, k) :: nodes).Nodup := by
      rw [List.nodup_cons]
      exact ⟨fun hc => k2 ((hP.mem r k).1 hc), nodup hP.lex⟩
    have := (List.subperm_of_subset hn hs).length_le
    have e1 := congrArg List.length hP.hashes
    have e2 := congrArg List.length hP'.hashes
    rw [List.length_map] at e1 e2
    rw [List.length_cons] at this
    omega
  · intro hk
    refine C83_same F F' st st' h h' L (L ++ adds) hL hL' hashes pf hp ?_ ?_
    · intro a ha
      obtain ⟨t, ht⟩ := exists_tree (hP.lt a ha)
      rw [List.length_append]
      exact (keeps_iff ht (lt_of_lt_of_le (hP.lt a ha) hle)).1 (hk a ha t ht)
    · intro a ha r x hin hx
      rw [List.getElem?_append_left]
      unfold InForest at hin
      have := Nat.lt_mul_div_succ x (show 0 < 2 ^ r by positivity)
      rw [hx, mul_comm] at this
      omega

/-- C83: the tree of height `t` is merged by the addition that makes the number of leaves a multiple of `2 ^ (t + 1)`. -/
theorem C83_when (n k t a : ℕ) (h : InTree n t a) : InTree (n + k) t a ↔ n % 2 ^ (t + 1) + k < 2 ^ (t + 1) := by
  have hpos : 0 < 2 ^ (t + 1) := by positivity
  have hd := Nat.div_add_mod n (2 ^ (t + 1))
  have key : (n + k) / 2 ^ (t + 1) = n / 2 ^ (t + 1) + (n % 2 ^ (t + 1) + k) / 2 ^ (t + 1) := by
    conv_lhs => rw [← hd, Nat.add_assoc, Nat.mul_add_div hpos]
  rw [inTree_iff] at h
  obtain ⟨h1, h2, h3⟩ := h
  rw [inTree_iff, key]
  constructor
  · rintro ⟨-, -, h4⟩
    by_contra hc
    have := Nat.div_pos (show 2 ^ (t + 1) ≤ n % 2 ^ (t + 1) + k by omega) hpos
    omega
  · intro hlt
    rw [Nat.div_eq_of_lt hlt] at key ⊢
    refine ⟨?_, h2, by omega⟩
    rw [Nat.testBit_eq_decide_div_mod_eq, decide_eq_true_eq] at h1 ⊢
    have hle : n / 2 ^ t ≤ (n + k) / 2 ^ t := Nat.div_le_div_right (by omega)
    rw [Nat.pow_succ, ← Nat.div_div_eq_div_mul, ← Nat.div_div_eq_div_mul] at key
    omega

/-- C83 in numbers: the proof of a forest of `n` leaves is that of the forest with `k` leaves more exactly if `k < 2 ^ (t + 1) - n % 2 ^ (t + 1)`
for the heights `t` of the trees with targets. -/
theorem C83_count (F F' : RamForest H) (st st' : List (UndoBatch H × RamForest H)) (h : Ram.Run F st) (h' : Ram.Run F' st') (L adds : List H)
    (hL : Ram.Represents F L) (hL' : Ram.Represents F' (L ++ adds)) (hashes : List H) (pf : BatchProof H)
    (hp : Acc.prove Ram.vt F hashes = .ok (some pf)) :
    Acc.prove Ram.vt F' hashes = .ok (some pf) ↔
      ∀ a ∈ pf.targets, ∀ t, InTree L.length t a → adds.length < 2 ^ (t + 1) - L.length % 2 ^ (t + 1) := by
  rw [C83_add F F' st st' h h' L adds hL hL' hashes pf hp]
  have hm : ∀ t : ℕ, L.length % 2 ^ (t + 1) < 2 ^ (t + 1) := fun t => Nat.mod_lt _ (by positivity)
  constructor
  · intro hk a ha t ht
    have := (C83_when _ _ _ _ ht).1 (hk a ha t ht)
    omega
  · intro hk a ha t ht
    have := hk a ha t ht
    have := hm t
    exact (C83_when _ _ _ _ ht).2 (by omega)

/-- C83: so it is with every pollard that follows the larger forest: the old proof is accepted as long as no tree with a target has been
merged. -/
theorem C83_verify (F F' : RamForest H) (st st' : List (UndoBatch H × RamForest H)) (h : Ram.Run F st) (p : Pollard H) (h' : Sync F' st' p)
    (L adds : List H) (hL : Ram.Represents F L) (hL' : Ram.Represents F' (L ++ adds)) (hashes : List H) (pf : BatchProof H)
    (hp : Acc.prove Ram.vt F hashes = .ok (some pf))
    (hk : ∀ a ∈ pf.targets, ∀ t, InTree L.length t a → InTree (L.length + adds.length) t a)
    (hs : List H) (hhs : hs.map some = pf.sorted.map fun t => L[t]?) :
    ∃ p', verify p pf hs = .ok (true, p') ∧ ¬ Collision p' (L ++ adds) ∧ Sync F' st' p' := by
  obtain ⟨_, _, hI⟩ := h'.inv
  refine C24_complete F' st' p h' (L ++ adds) hL' hashes pf ((C83_add F F' st st' h hI.run L adds hL hL' hashes pf hp).2 hk) hs ?_
  rw [hhs]
  apply List.map_congr_left
  intro t ht
  rw [List.getElem?_append_left (leaves_lt hhs t ht)]

/-- C83: otherwise the proof of the larger forest has the same targets and contains the old hashes in their order, and others. -/
theorem C83_more (F F' : RamForest H) (st st' : List (UndoBatch H × RamForest H)) (h : Ram.Run F st) (h' : Ram.Run F' st') (L adds : List H)
    (hL : Ram.Represents F L) (hL' : Ram.Represents F' (L ++ adds)) (hashes : List H) (pf : BatchProof H)
    (hp : Acc.prove Ram.vt F hashes = .ok (some pf))
    (hk : ¬ ∀ a ∈ pf.targets, ∀ t, InTree L.length t a → InTree (L.length + adds.length) t a) :
    ∃ pf', Acc.prove Ram.vt F' hashes = .ok (some pf') ∧ pf'.targets = pf.targets ∧ pf.hashes.Sublist pf'.hashes ∧
      pf.hashes.length < pf'.hashes.length := by
  obtain ⟨nodes, hP⟩ := Proof.of h hL hp
  have hle : L.length ≤ L.length + adds.length := by omega
  obtain ⟨L0, hL0, hnd', -⟩ := C16_represents F' st' h'
  obtain rfl := hL'.unique hL0
  obtain ⟨r, e1, e2, -⟩ := C22_prove F st h L hL hashes
  obtain ⟨r', e1', e2', -⟩ := C22_prove F' st' h' (L ++ adds) hL' hashes
  have hr : r = some pf := by rw [e1] at hp; exact Except.ok.inj hp
  obtain ⟨s1, s2⟩ := e2.1 (by rw [hr]; rfl)
  obtain ⟨pf', rfl⟩ := Option.isSome_iff_exists.1 (e2'.2 ⟨s1, fun x hx => List.mem_append_left _ (s2 x hx)⟩)
  obtain ⟨nodes', hP'⟩ := Proof.of h' hL' e1'
  have ht : pf'.targets = pf.targets := by
    refine targets_eq hnd' hP'.targets ?_
    rw [← hP.targets]
    apply List.map_congr_left
    intro t ht
    rw [List.getElem?_append_left (hP.lt t ht)]
  have hm : ∀ b, b ∈ nodes → b ∈ nodes' := by
    rintro ⟨q, x⟩ hb
    rw [hP'.mem, List.length_append, ht]
    exact node_mono hle ((hP.mem q x).1 hb)
  have hh : pf.hashes = nodes.map fun a => node (L ++ adds) a.1 a.2 := by
    rw [hP.hashes]
    apply List.map_congr_left
    rintro ⟨q, x⟩ hb
    exact node_append ((hP.mem q x).1 hb)
  have hsub : pf.hashes.Sublist pf'.hashes := by
    rw [hh, hP'.hashes]
    exact (sub hP.lex hP'.lex hm).map _
  refine ⟨pf', e1', ht, hsub, ?_⟩
  rcases Nat.lt_or_ge pf.hashes.length pf'.hashes.length with hlt | hge
  · exact hlt
  · exfalso
    apply hk
    rw [← C83_add F F' st st' h h' L adds hL hL' hashes pf hp, e1']
    have a1 := hsub.eq_of_length_le hge
    have a2 : pf'.sorted = pf.sorted := perm_eq hP'.sorted hP.sorted hP'.perm (by rw [ht]; exact hP.perm)
    cases pf; cases pf'; simp_all

/-! ## Pollards and old proofs -/

namespace Shelf

theorem known_iff {p : Pollard H} {F : RamForest H} {st : List (UndoBatch H × RamForest H)} (h : Sync F st p) {L : List H}
    (hL : Ram.Represents F L) {r k : ℕ} (hk : InForest L.length r k) : known p L (r, k) = true ↔ read p (at' L r k) ≠ .ok none := by
  obtain ⟨L0, A, hI⟩ := h.inv
  obtain rfl := hL.unique hI.rep
  rw [known_eq hI.inv hI.len (inForest_iff.1 hk), hI.inv.read_at hI.len (inForest_iff.1 hk)]
  cases A r k <;> simp

/-- The unknown nodes are all paid for. -/
theorem reads_count {z : H} : ∀ (q : List (Bool × H)) (hs : List H), Reads z q hs → q.length ≤ hs.length + q.countP Prod.fst
  | [], hs, _ => by simp
  | (false, a) :: q, hs, h => by
    obtain ⟨t, rfl, h⟩ := h
    have := reads_count q t h
    simp only [List.length_cons, List.countP_cons, Bool.false_eq_true, if_false]
    omega
  | (true, a) :: q, hs, h => by
    simp only [List.length_cons, List.countP_cons, if_true]
    rcases h with ⟨t, rfl, h⟩ | ⟨-, -, h⟩
    · have := reads_count q t h
      rw [List.length_cons]
      omega
    · have := reads_count q hs h
      omega

end Shelf

/-- C83: a pollard that accepts a proof with fewer hashes than the proof of its forest, for the same targets, has cached at least as many nodes of
that proof as there are hashes missing. -/
theorem C83_lacking (F : RamForest H) (st : List (UndoBatch H × RamForest H)) (p : Pollard H) (h : Sync F st p) (L : List H)
    (hL : Ram.Represents F L) (pf : BatchProof H) (hs : List H) (ht : pf.targets ≠ []) (nodes : List (ℕ × ℕ))
    (hN : ProofNodes L.length pf.sorted nodes) (p' : Pollard H) (hv : verify p pf hs = .ok (true, p')) (hc : ¬ Collision p' L) :
    nodes.length ≤ pf.hashes.length + nodes.countP fun a => decide (read p (at' L a.1 a.2) ≠ .ok none) := by
  have hf := (C40_only F st p h L hL pf hs ht nodes hN p' hv hc).reads
  have := reads_count _ _ hf
  unfold seen at this
  rw [List.length_map, List.length_reverse, List.length_reverse, List.countP_map, List.countP_reverse] at this
  refine le_trans this (Nat.add_le_add_left (le_of_eq ?_) _)
  apply List.countP_congr
  rintro ⟨r, k⟩ ha
  have hin : InForest L.length r k := inForest_iff.2 (ProofNode.inn ((hN.2 r k).1 ha))
  simp only [Function.comp_apply, decide_eq_true_eq]
  exact known_iff h hL hin

/-- C83: once a tree with a target has been merged, a pollard that has none of the nodes the old proof now lacks rejects it, unless a node of the
forest has the zero hash or a collision comes into view. -/
theorem C83_stale (F F' : RamForest H) (st st' : List (UndoBatch H × RamForest H)) (h : Ram.Run F st) (p : Pollard H) (h' : Sync F' st' p)
    (L adds : List H) (hL : Ram.Represents F L) (hL' : Ram.Represents F' (L ++ adds))
    (hashes : List H) (pf : BatchProof H) (hp : Acc.prove Ram.vt F hashes = .ok (some pf))
    (hk : ¬ ∀ a ∈ pf.targets, ∀ t, InTree L.length t a → InTree (L.length + adds.length) t a)
    (hb : ∀ r i, ProofNode (L.length + adds.length) pf.targets r i → read p (at' (L ++ adds) r i) = .ok none) (hs : List H) :
    (∃ p', verify p pf hs = .ok (false, p')) ∨
      (∃ r i, InForest (L.length + adds.length) r i ∧ node (L ++ adds) r i = HashOps.zero) ∨
      ∃ p', verify p pf hs = .ok (true, p') ∧ Collision p' (L ++ adds) := by
  obtain ⟨nodes, hP⟩ := Proof.of h hL hp
  have hle : L.length ≤ L.length + adds.length := by omega
  obtain ⟨L0, A, hI⟩ := h'.inv
  obtain rfl := hL'.unique hI.rep
  obtain ⟨pf', e1, e2, -, e4⟩ := C83_more F F' st st' h hI.run L adds hL hL' hashes pf hp hk
  obtain ⟨nodes', hP'⟩ := Proof.of hI.run hL' e1
  have hsort : pf'.sorted = pf.sorted := perm_eq hP'.sorted hP.sorted hP'.perm (by rw [e2]; exact hP.perm)
  have ht : pf.targets ≠ [] := by
    intro hc
    apply hk
    rw [hc]
    simp
  have key : ∀ p', verify p pf hs = .ok (true, p') → Collision p' (L ++ adds) := by
    intro p' hv
    by_contra hc
    have hN : ProofNodes (L ++ adds).length pf.sorted nodes' := by rw [← hsort]; exact hP'.places
    have := C40_unique F' st' p h' (L ++ adds) hL' pf hs ht nodes' hN (by
      rintro ⟨r, i⟩ ha
      have h1 := (hP'.mem r i).1 ha
      rw [e2, List.length_append] at h1
      unfold known
      rw [hb r i h1]) p' hv hc
    rw [this, hP'.hashes] at e4
    exact absurd e4 (lt_irrefl _)
  rcases verify_ok hI.inv hI.len pf hs with ⟨e, -⟩ | ⟨-, h0, -⟩ | ⟨-, -, r, x, q, hq, hz⟩ | ⟨s', e, -⟩ | ⟨s', A1, e, -⟩
  · exact .inl ⟨_, e⟩
  · exact absurd h0 ht
  · refine .inr (.inl ⟨r, x, ?_, hz⟩)
    rw [← List.length_append, inForest_iff]
    by_contra hx
    rw [hI.inv.out r x hx] at hq; simp at hq
  · exact .inl ⟨_, e⟩
  · exact .inr (.inr ⟨s', e, key s' e⟩)

/-- C83: in particular after `Prune`. -/
theorem C83_pruned (F F' : RamForest H) (st st' : List (UndoBatch H × RamForest H)) (h : Ram.Run F st) (p q : Pollard H) (h' : Sync F' st' p)
    (hq : pruneAll p = .ok q) (L adds : List H) (hL : Ram.Represents F L) (hL' : Ram.Represents F' (L ++ adds))
    (hashes : List H) (pf : BatchProof H) (hp : Acc.prove Ram.vt F hashes = .ok (some pf))
    (hk : ¬ ∀ a ∈ pf.targets, ∀ t, InTree L.length t a → InTree (L.length + adds.length) t a) (hs : List H) :
    (∃ p', verify q pf hs = .ok (false, p')) ∨
      (∃ r i, InForest (L.length + adds.length) r i ∧ node (L ++ adds) r i = HashOps.zero) ∨
      ∃ p', verify q pf hs = .ok (true, p') ∧ Collision p' (L ++ adds) := by
  refine C83_stale F F' st st' h q (h'.prune hq) L adds hL hL' hashes pf hp hk ?_ hs
  rintro r i hP
  have hin : InForest (L ++ adds).length r i := inForest_iff.2 (by rw [List.length_append]; exact ProofNode.inn hP)
  obtain ⟨j, b, hb, rfl, hj, -⟩ := hP
  exact (C28_read F' st' p h' (L ++ adds) hL' q hq r _ hin).1 (by
    rw [show (2 * j + (1 - b)) / 2 = j by omega, List.length_append]; exact hj)

/-- C83 for distinct hashes other than the zero hash: a pollard that follows the larger forest accepts the old proof exactly if it
has all nodes that belong to the proof now and did not then. -/
theorem C83_exact (F F' : RamForest H) (st st' : List (UndoBatch H × RamForest H)) (h : Ram.Run F st) (p : Pollard H) (h' : Sync F' st' p)
    (L adds : List H) (hL : Ram.Represents F L) (hL' : Ram.Represents F' (L ++ adds)) (hashes : List H) (pf : BatchProof H)
    (hp : Acc.prove Ram.vt F hashes = .ok (some pf)) (hs : List H) (hhs : hs.map some = pf.sorted.map fun t => L[t]?)
    (hnd : ∀ r i s j, ProofNode (L.length + adds.length) pf.targets r i → ProofNode (L.length + adds.length) pf.targets s j →
      node (L ++ adds) r i = node (L ++ adds) s j → r = s ∧ i = j)
    (h0 : ∀ r i, ProofNode (L.length + adds.length) pf.targets r i → node (L ++ adds) r i ≠ HashOps.zero) :
    (∃ p', verify p pf hs = .ok (true, p') ∧ ¬ Collision p' (L ++ adds)) ↔
      ∀ r i, ProofNode (L.length + adds.length) pf.targets r i → ¬ ProofNode L.length pf.targets r i →
        read p (at' (L ++ adds) r i) ≠ .ok none := by
  obtain ⟨nodes, hP⟩ := Proof.of h hL hp
  have hle : L.length ≤ L.length + adds.length := by omega
  obtain ⟨L0, A, hI⟩ := h'.inv
  obtain rfl := hL'.unique hI.rep
  obtain ⟨L1, hL1, hnd', -⟩ := C16_represents F' st' hI.run
  obtain rfl := hL'.unique hL1
  obtain ⟨nodes', comp, q1, q2, q3, -⟩ := Ram.proof_nodes hI.len hP.sorted (fun t ht => by
    rw [List.length_append]; exact lt_of_lt_of_le (leaves_lt hhs t ht) hle)
  have hmm : ∀ {n r k}, ProofNode n pf.sorted r k ↔ ProofNode n pf.targets r k := by
    intro n r k
    unfold ProofNode
    simp only [hP.perm.mem_iff]
  have hN : ProofNodes (L ++ adds).length pf.sorted nodes' := ⟨q2, q3⟩
  have hmem : ∀ r k, (r, k) ∈ nodes' ↔ ProofNode (L.length + adds.length) pf.targets r k := by
    intro r k
    rw [q3, hmm, List.length_append]
  have hlex' := Shelf.lex hI.len q2 q3
  have hsub := sub hP.lex hlex' (by
    rintro ⟨q, x⟩ hb
    exact (hmem q x).2 (node_mono hle ((hP.mem q x).1 hb)))
  have hh : pf.hashes = nodes.map fun a => node (L ++ adds) a.1 a.2 := by
    rw [hP.hashes]
    apply List.map_congr_left
    rintro ⟨q, x⟩ hb
    exact node_append ((hP.mem q x).1 hb)
  have hin : ∀ {r k}, ProofNode (L.length + adds.length) pf.targets r k → InForest (L ++ adds).length r k := fun hk =>
    inForest_iff.2 (by rw [List.length_append]; exact ProofNode.inn hk)
  constructor
  · rintro ⟨p', hv, hc⟩ r i h1 h2
    by_cases ht : pf.targets = []
    · obtain ⟨j, b, -, -, -, ⟨a, ha, -⟩, -⟩ := h1
      rw [ht] at ha
      simp at ha
    · rw [← known_iff h' hL' (hin h1)]
      by_contra hkn
      have := (C40_no_junk F' st' p h' (L ++ adds) hL' pf hs ht nodes' hN p' hv hc).2 (r, i) ((hmem r i).2 h1) (by simpa using hkn)
      rw [hh] at this
      obtain ⟨⟨s, j⟩, hb, he⟩ := List.mem_map.1 this
      obtain ⟨rfl, rfl⟩ := hnd s j r i (node_mono hle ((hP.mem s j).1 hb)) h1 he
      exact h2 ((hP.mem s j).1 hb)
  · intro hall
    refine C40_trim F' st' p h' (L ++ adds) hL' pf hs nodes' hN ?_ hP.sorted ?_ ?_ ?_ ?_ ?_
    · have := congrArg List.length hhs
      rw [List.length_map, List.length_map, hP.perm.length_eq] at this
      exact this
    · rw [hhs]
      apply List.map_congr_left
      intro t ht
      rw [List.getElem?_append_left (leaves_lt hhs t ht)]
    · refine List.Nodup.map_on ?_ (nodup hlex')
      rintro ⟨r, i⟩ ha ⟨s, j⟩ hb he
      obtain ⟨rfl, rfl⟩ := hnd r i s j ((hmem r i).1 ha) ((hmem s j).1 hb) he
      rfl
    · rintro ⟨r, i⟩ ha
      exact h0 r i ((hmem r i).1 ha)
    · rw [hh]
      exact hsub.map _
    · rintro ⟨r, i⟩ ha hkn
      have h1 := (hmem r i).1 ha
      have h2 : ProofNode L.length pf.targets r i := by
        by_contra hc
        have := (known_iff h' hL' (hin h1)).2 (hall r i h1 hc)
        rw [this] at hkn
        simp at hkn
      rw [hh]
      exact List.mem_map.2 ⟨(r, i), (hP.mem r i).2 h2, rfl⟩

/-! ## Concrete cases -/

section
attribute [local instance] toyOps

/-- The proof of leaf 1 of five leaves. Its tree has height 2, so `C83_count` promises that it is good for `8 - 5 - 1 = 2` further leaves. -/
def oldProof : BatchProof ℕ := { targets := [1], sorted := [1], hashes := [11, 13141] }

example : InTree 5 2 1 ∧ InTree (5 + 2) 2 1 ∧ ¬ InTree (5 + 3) 2 1 ∧ 2 < 2 ^ 3 - 5 % 2 ^ 3 ∧ ¬ 3 < 2 ^ 3 - 5 % 2 ^ 3 := by
  unfold InTree treeStart; decide

/-- It is, and it is not good for a third one, for which the root of the right half is missing (`C83_add`, `C83_more`). -/
example : toyAfter [rememberSome 5 []] (fun F _ => Acc.prove Ram.vt F [12]) = .ok (some oldProof) ∧
    toyAfter [rememberSome 7 []] (fun F _ => Acc.prove Ram.vt F [12]) = .ok (some oldProof) ∧
    toyAfter [rememberSome 8 []] (fun F _ => Acc.prove Ram.vt F [12]) = .ok (some { oldProof with hashes := [11, 13141, 15332811] }) := by
  decide +kernel

/-- A pollard accepts the proof in the same situations (`C83_verify`, `C83_stale`); one that remembers leaf 0 has the node (2, 1) and accepts it
at eight leaves as well (`C83_exact`, `C83_lacking`). -/
example : toyAfter [rememberSome 7 []] (fun _ p => do return (← verify p oldProof [12]).1) = .ok true ∧
    toyAfter [rememberSome 8 []] (fun _ p => do return (← verify p oldProof [12]).1) = .ok false ∧
    toyAfter [rememberSome 8 [0]] (fun _ p => do return (← verify p oldProof [12]).1) = .ok true ∧
    toyAfter [rememberSome 8 [0]] (fun _ p => do return (← verify (← pruneAll p) oldProof [12]).1) = .ok false ∧
    toyAfter [rememberSome 8 []] (fun _ p => do return (← read p 13)) = .ok none ∧
    toyAfter [rememberSome 8 [0]] (fun _ p => do return (← read p 13)) = .ok (some 15332811) := by decide +kernel

/-- The node that is missing from the old proof at eight leaves. -/
example : ProofNode 8 [1] 2 1 ∧ ¬ ProofNode 5 [1] 2 1 := by
  constructor
  · exact ⟨0, 0, by decide, rfl, by unfold InForest; decide, ⟨1, by simp, by decide⟩, by simp⟩
  · rintro ⟨j, b, hb, e, hj, -⟩
    unfold InForest at hj
    omega

/-- `C83_same` for forests that do not arise from each other by additions: after the deletion of leaf 6 of seven the proof of leaf 5 is the
same, and the hypothesis on the leaves below its ancestors holds. -/
example : toyAfter [rememberSome 7 []] (fun F _ => do
      let (_, _, F') ← Ram.modify F [] [6]
      return (← Acc.prove Ram.vt F [16], ← Acc.prove Ram.vt F' [16])) =
    .ok (some { targets := [5], sorted := [5], hashes := [15] }, some { targets := [5], sorted := [5], hashes := [15] }) := by decide +kernel

example : ∀ r, InForest 7 r (5 / 2 ^ r) ↔ InForest 6 r (5 / 2 ^ r) :=
  (keeps_iff (t := 1) (by unfold InTree treeStart; decide) (by decide)).1 (by unfold InTree treeStart; decide)

end

end Utreexo
