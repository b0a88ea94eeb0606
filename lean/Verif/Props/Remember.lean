import Verif.Props.Memorable
import Verif.Props.Pieces

/-!
# C79: the test `pollard_remember` at every size
-/

set_option linter.unusedSectionVars false

namespace Utreexo
open Spec Equiv Pol

section Any
variable [HashOps Hash32]
open Suite Bench
attribute [-instance] Subtype.instBEq

theorem Suite.Start.known {n : ℕ} {rem : List ℕ} {u : UndoBatch Hash32} {F : RamForest Hash32} {p : Pollard Hash32}
    (h : Start n rem u F p) (hn : n < 2 ^ 31) (hr : ∀ i ∈ rem, i < n) {a : ℕ × ℕ} (ha : InForest n a.1 a.2) (hk : needed n rem a.1 a.2 = true) :
    Pol.known p (hashesOf n) a = true := by
  obtain ⟨r, i⟩ := a
  suffices hs : Pol.read p (at' (hashesOf n) r i) = .ok (some (node (hashesOf n) r i)) by
    unfold Pol.known
    dsimp only
    rw [hs]
  have hin : InForest (hashesOf n).length r i := by rw [hashesOf_length]; exact ha
  obtain ⟨k1, k2⟩ := C81_kept F _ _ p _ h.held (h.tidy hn) _ h.rep r i hin
  unfold needed at hk
  rw [Bool.or_eq_true, decide_eq_true_eq, List.any_eq_true] at hk
  simp only [Bool.or_eq_true, beq_iff_eq, Bool.and_eq_true] at hk
  by_cases hroot : InForest (hashesOf n).length (r + 1) (i / 2)
  · have hlt : ¬ n < (i / 2 + 1) * 2 ^ (r + 1) := by
      unfold InForest at hroot
      rw [hashesOf_length] at hroot
      omega
    rw [or_iff_right hlt] at hk
    obtain ⟨k3, -⟩ := k2 hroot
    obtain ⟨t, q2, q4 | ⟨rfl, rfl⟩⟩ := hk
    · exact k3 ⟨t, _, hashesOf_get (hr t q2), ⟨t, q2, rfl⟩, q4⟩
    · have h2 : at' (hashesOf n) 0 t = t := by unfold at'; exact posOf_zero _ _
      have h3 : node (hashesOf n) 0 t = setHash t := by
        unfold node
        rw [(leafFn_get.1 (hashesOf_get (hr t q2))).2.symm]; rfl
      rw [h2, h3]
      exact h.seen hn (hr t q2) q2
  · exact k1 hroot

/-- C79: the test `pollard_remember` for every number of leaves, every set `rem` of remembered leaves and every set `D` of leaves to
delete. The first proof may leave out any hashes that the remembered leaves provide. Then a remembered leaf `t` is deleted without a proof
from a forest of an even number of leaves; it has moved to `t'`. Let `k` be the height of the smallest tree. The test passes if from row `k` on
there is another remembered leaf in each subtree beside the way from the leaf to its root; otherwise it has undefined behaviour. -/
theorem C79_remember (n : ℕ) (hn : n < 2 ^ 31) (rem D given : List ℕ) (hr : ∀ i ∈ rem, i < n) (hD : D.Pairwise (· < ·)) (hb : ∀ i ∈ D, i < n)
    (hgb : ∀ i ∈ given, i < n) (leaves : List (Leaf Hash32)) (b b' : Bool) (F : RamForest Hash32)
    (p : Pollard Hash32) (hset : setup n rem = .ok (leaves, b, b', F, p)) (proof : BatchProof Hash32)
    (hp : Acc.prove Ram.vt F (D.map setHash) = .ok (some proof)) (h1 : proof.hashes.Nodup) (h2 : HashOps.zero ∉ proof.hashes)
    (hs : (given.map setHash).Sublist proof.hashes)
    (hg : ∀ r i, ProofNode n D r i → node (hashesOf n) r i ∈ given.map setHash ∨ needed n rem r i = true)
    (t : ℕ) (ht : t ∈ rem) (t' : ℕ) (ht' : (deleteLeaves (hashesOf n) D)[t']? = some (setHash t))
    (k : ℕ) (hk0 : 0 < k) (hk : 2 ^ k ∣ n - D.length) (hk' : ¬ 2 ^ (k + 1) ∣ n - D.length) :
    ((∀ r, k ≤ r → InForest (n - D.length) (r + 1) (t' / 2 ^ (r + 1)) →
        ∃ s : ℕ, ∃ i ∈ rem, (deleteLeaves (hashesOf n) D)[s]? = some (setHash i) ∧ s / 2 ^ r = t' / 2 ^ r ^^^ 1) →
      pollardRemember n rem D given t = .ok (List.replicate 11 true)) ∧
    ((¬ ∀ r, k ≤ r → InForest (n - D.length) (r + 1) (t' / 2 ^ (r + 1)) →
        ∃ s : ℕ, ∃ i ∈ rem, (deleteLeaves (hashesOf n) D)[s]? = some (setHash i) ∧ s / 2 ^ r = t' / 2 ^ r ^^^ 1) →
      pollardRemember n rem D given t = .error .ub) := by
  obtain ⟨u, F', p', k1, k2⟩ := setup_ok hn hr
  have hset' := hset
  rw [k1] at hset'
  simp only [Except.ok.injEq, Prod.mk.injEq] at hset'
  obtain ⟨rfl, rfl, rfl, rfl, rfl⟩ := hset'
  obtain ⟨proof', nodes, a1, a2, a3, a4, a5⟩ := proof_nodes hn k2.run k2.rep hD hb
  have a1' := a1
  rw [hp] at a1'
  obtain rfl : proof = proof' := by simpa using a1'
  have hnd := hashesOf_nodup (n := n) (by omega)
  have hlen : (hashesOf n).length = n := hashesOf_length n
  have h1' := h1
  have h2' := h2
  have hs' := hs
  rw [a5] at h1' h2' hs'
  have hz : ∀ a ∈ nodes, node (hashesOf n) a.1 a.2 ≠ HashOps.zero := fun a ha e =>
    h2' (by rw [← e]; exact List.mem_map_of_mem (f := fun a : ℕ × ℕ => node (hashesOf n) a.1 a.2) ha)
  -- the short proof
  obtain ⟨p1, f1, f2⟩ := C40_trim F' _ p' k2.held.sync _ k2.rep (BatchProof.mk' D (given.map setHash)) (D.map setHash) nodes
    (by rw [mk'_sorted hD]; exact a4) (by simp [BatchProof.mk']) (by rw [mk'_sorted hD]; exact hD) (by rw [mk'_sorted hD]; exact at_hashes hb) h1' hz hs'
    (by
      rintro ⟨r, i⟩ ha hun
      have hpn := (a4.2 r i).1 ha
      rw [hlen] at hpn
      rcases hg r i hpn with hm | hm
      · exact hm
      · rw [k2.known hn hr (a := (r, i)) ?_ hm] at hun
        · simp at hun
        · obtain ⟨j, c, hc, rfl, hj, -⟩ := hpn
          rw [inForest_iff] at hj ⊢
          have := Ram.child_bound hj
          dsimp only
          omega)
  have H1 := Held.verify k2.held k2.rep f1 f2
  -- the full proof
  obtain ⟨p2, g1, g2⟩ := C40_trim F' _ p1 H1.sync _ k2.rep proof (D.map setHash) nodes
    (by rw [a2]; exact a4) (by rw [a3]; simp) (by rw [a2]; exact hD) (by rw [a2]; exact at_hashes hb) h1' hz (by rw [a5])
    (fun a ha _ => by rw [a5]; exact List.mem_map_of_mem (f := fun a : ℕ × ℕ => node (hashesOf n) a.1 a.2) ha)
  have H2 := Held.verify H1 k2.rep g1 g2
  have hV := Verifies.next (Verifies.next (Verifies.none (L := hashesOf n) (p := p')) f1 (fun _ => f2)) g1 (fun _ => g2)
  have hv := valid_del hn hD hb
  have hdel : Deletable (hashesOf n) (fun h => ((fun h => False ∨ (true = true ∧ h ∈ D.map setHash)) h) ∨ (true = true ∧ h ∈ D.map setHash)) p2 D :=
    .inl fun x hx => .inl ⟨setHash x, hashesOf_get (hb x hx), .inr ⟨rfl, List.mem_map_of_mem hx⟩⟩
  obtain ⟨v, F1, p3, e1, e2, -⟩ := C53_modify_partial F' _ p' p2 k2.held.sync _ k2.rep _ hV [] [] D hv rfl hdel
  have H3 := Held.later H2 k2.held.sync k2.rep hV hv rfl hdel e1 e2
  have T3 := Tidy.later (k2.tidy hn) k2.rep hV hv rfl hdel (by
    rintro h ((hf | ⟨-, hm⟩) | ⟨-, hm⟩)
    · exact hf.elim
    all_goals
      obtain ⟨x, hx, rfl⟩ := List.mem_map.1 hm
      exact ⟨x, hx, hashesOf_get (hb x hx)⟩) e1 e2
  obtain ⟨v', F1', c1, c2, c3⟩ := C56_order F' _ k2.run _ k2.rep [] D hv
  rw [e1] at c1
  simp only [Except.ok.injEq, Prod.mk.injEq, Option.some.injEq, true_and] at c1
  obtain ⟨rfl, rfl⟩ := c1
  rw [List.map_nil, List.append_nil] at c3
  have hlen' : (deleteLeaves (hashesOf n) D).length = n - D.length := by
    rw [Ram.delete_length hD (by rw [hlen]; exact hb) (by rw [hlen]; omega), hlen]
  obtain ⟨L0, hL0, hnd', -⟩ := C16_represents F1 _ c2
  obtain rfl := c3.unique hL0
  have ht1 : t' < n - D.length := by
    rw [← hlen']
    exact (List.getElem?_eq_some_iff.1 ht').1
  -- the second proof
  obtain ⟨r, d1, d2, d3⟩ := C22_prove F1 _ c2 _ c3 [setHash t]
  have hsome := d2.2 ⟨by simp, by simpa using List.mem_of_getElem? ht'⟩
  obtain ⟨pf, rfl⟩ := Option.isSome_iff_exists.1 hsome
  obtain ⟨d4, d5, d6, -⟩ := d3 pf rfl
  have htg : pf.targets = [t'] := by
    have hl : pf.targets.length = 1 := by simpa using congrArg List.length d4
    obtain ⟨x, hx⟩ := List.length_eq_one_iff.1 hl
    rw [hx] at d4
    simp only [List.map_cons, List.map_nil, List.cons.injEq, and_true] at d4
    rw [hx, get_inj hnd' d4 ht']
  have hsd : pf.sorted = [t'] := by
    rw [htg] at d6
    exact List.perm_singleton.1 d6
  have hv' : Ram.Valid (deleteLeaves (hashesOf n) D) (([] : List (Leaf Hash32)).map Prod.fst) [t'] := by
    refine ⟨by simp, by simpa [hlen'] using ht1, List.nodup_nil, by simp, fun _ => by rw [hlen']; omega, ?_⟩
    rw [hlen']
    simp only [List.map_nil, List.length_nil]
    omega
  have hQ : ∀ (s : ℕ) (a : Hash32), (deleteLeaves (hashesOf n) D)[s]? = some a →
      ((((((∃ i ∈ rem, a = setHash i) ∨ a ∈ D.map setHash) ∨ a ∈ D.map setHash) ∧ a ∈ survivors (hashesOf n) D) ∨ (a, true) ∈ ([] : List (Leaf Hash32))) ↔
        ∃ i ∈ rem, a = setHash i) := by
    intro s a ha
    have hsv : a ∈ survivors (hashesOf n) D :=
      (C56_survivors _ D hD (by rw [hlen]; exact hb) (by rw [hlen]; omega)).mem_iff.1 (List.mem_of_getElem? ha)
    constructor
    · have hno : a ∉ D.map setHash := by
        intro hm
        obtain ⟨x, hx, rfl⟩ := List.mem_map.1 hm
        obtain ⟨y, hy, hyD⟩ := mem_survivors.1 hsv
        exact hyD (by rw [get_inj hnd hy (hashesOf_get (hb x hx))]; exact hx)
      rintro (⟨(hm | hm) | hm, -⟩ | hm)
      · exact hm
      · exact absurd hm hno
      · exact absurd hm hno
      · simp at hm
    · exact fun hm => .inl ⟨.inl (.inl hm), hsv⟩
  have hex := C53_tidy F1 _ _ p3 _ H3 T3 _ c3 [] [] t' hv' rfl ⟨_, ht', (hQ _ _ ht').2 ⟨t, ht, rfl⟩⟩ k
    (by rw [hlen']; exact hk) (by rw [hlen']; exact hk')
  rw [hlen'] at hex
  have hcond : ∀ r, (∃ (s : ℕ) (a : Hash32), (deleteLeaves (hashesOf n) D)[s]? = some a ∧
      (((((∃ i ∈ rem, a = setHash i) ∨ a ∈ D.map setHash) ∨ a ∈ D.map setHash) ∧ a ∈ survivors (hashesOf n) D) ∨ (a, true) ∈ ([] : List (Leaf Hash32))) ∧
      s / 2 ^ r = t' / 2 ^ r ^^^ 1) ↔
      ∃ s : ℕ, ∃ i ∈ rem, (deleteLeaves (hashesOf n) D)[s]? = some (setHash i) ∧ s / 2 ^ r = t' / 2 ^ r ^^^ 1 := by
    intro r
    constructor
    · rintro ⟨s, a, q1, q2, q3⟩
      obtain ⟨i, hi, rfl⟩ := (hQ s a q1).1 q2
      exact ⟨s, i, hi, q1, q3⟩
    · rintro ⟨s, i, hi, q1, q3⟩
      exact ⟨s, _, q1, (hQ s _ q1).2 ⟨i, hi, rfl⟩, q3⟩
  unfold pollardRemember
  rw [k1, ok_bind]
  dsimp only
  rw [hashesAt_ok _ _ hb, ok_bind, hp, ok_bind, hashesAt_ok _ _ hgb, ok_bind]
  simp only [Bench.proofOf, Option.getD_some, f1, g1, ok_bind, a2, e1, e2]
  rw [hashesAt_ok _ [t] (by simpa using hr t ht), ok_bind]
  simp only [List.map_cons, List.map_nil, d1, ok_bind, Option.getD_some, hsd, Option.isSome_some]
  constructor
  · intro hc
    obtain ⟨w, F2, p4, L2, rs, m1, m2, -, -, -, m3, m4, -⟩ := hex.1 (fun h => absurd h (by omega))
      (fun r hr _ hi => (hcond r).2 (hc r hr hi))
    rw [m2, ok_bind]
    dsimp only
    rw [m1, ok_bind]
    dsimp only
    rw [m3, ok_bind, m4, ok_bind]
    simp [pure, Except.pure, List.replicate]
  · intro hc
    obtain ⟨-, m⟩ := hex.2 (by
      rintro ⟨-, hh⟩
      exact hc fun r hr hi => (hcond r).1 (hh r hr (by omega) hi))
    rw [m]
    rfl

end Any

/-! ## Concrete cases -/

section Examples32
open Suite Bench
attribute [local instance] toyOps32

/-- The hashes of the proof in the test. -/
def rememberProof (n : ℕ) (rem D : List ℕ) : Res (List Hash32) := do
  let (_, _, _, F, _) ← setup n rem
  let some proof ← Acc.prove Ram.vt F (D.map setHash) | .error .exc
  return proof.hashes

/-- The values of the test: leaves 1, 2 and 3 of 8 are remembered, 0 and 2 are proved with the hash of leaf 1, then 3 is deleted. -/
example : pollardRemember 8 [1, 2, 3] [0, 2] [1] 3 = .ok (List.replicate 11 true) := by
  obtain ⟨u, F, p, e, h⟩ := setup_ok (n := 8) (by decide) (rem := [1, 2, 3]) (by decide)
  obtain ⟨proof, nodes, a1, -⟩ := Suite.proof_nodes (n := 8) (by decide) h.run h.rep (D := [0, 2]) (by decide) (by decide)
  have hp : rememberProof 8 [1, 2, 3] [0, 2] = .ok proof.hashes := by
    unfold rememberProof
    rw [e, ok_bind]
    dsimp only
    rw [a1, ok_bind]
    rfl
  have hq : rememberProof 8 [1, 2, 3] [0, 2] = .ok [setHash 1, setHash 3, HashOps.ph (HashOps.ph (setHash 4) (setHash 5)) (HashOps.ph (setHash 6) (setHash 7))] := by
    decide +kernel
  have hh := Except.ok.inj (hp.symm.trans hq)
  refine (C79_remember 8 (by decide) [1, 2, 3] [0, 2] [1] (by decide) (by decide) (by decide) (by decide) _ _ _ F p e proof a1 (by rw [hh]; decide +kernel)
    (by rw [hh]; decide +kernel) (by rw [hh]; decide +kernel) ?_ 3 (by decide) 4 (by decide +kernel) 1 (by decide) (by decide) (by decide)).1 ?_
  · rintro r i ⟨j, b, hb, rfl, hin, ⟨a, ha, hab⟩, hne⟩
    have hr : r < 3 := by
      by_contra hc
      have : 2 ^ 4 ≤ 2 ^ (r + 1) := Nat.pow_le_pow_right (by omega) (by omega)
      unfold InForest at hin
      nlinarith
    unfold InForest at hin
    have hj : j < 4 := by
      have : 2 ≤ 2 ^ (r + 1) := by rw [pow_succ]; have := Nat.one_le_two_pow (n := r); omega
      nlinarith
    have hne0 := hne 0 (by decide)
    have hne2 := hne 2 (by decide)
    clear hne e h hp a1 hh hq
    have hcase : a = 0 ∨ a = 2 := by simpa using ha
    clear ha
    rcases hcase with rfl | rfl <;> interval_cases r <;> interval_cases j <;> interval_cases b <;> revert hin hab hne0 hne2 <;> decide +kernel
  · intro r hr hi
    exfalso
    unfold InForest at hi
    have : 2 ^ 2 ≤ 2 ^ (r + 1) := Nat.pow_le_pow_right (by omega) (by omega)
    have : 8 ≤ 2 ^ (r + 1) ∨ r = 1 := by
      rcases Nat.lt_or_ge r 2 with h | h
      · right; omega
      · left
        exact le_trans (by decide) (Nat.pow_le_pow_right (by omega) (by omega : 3 ≤ r + 1))
    rcases this with h | rfl
    · have h6 : (4 / 2 ^ (r + 1) + 1) * 2 ^ (r + 1) ≤ 6 := hi
      have := Nat.le_mul_of_pos_left (2 ^ (r + 1)) (Nat.succ_pos (4 / 2 ^ (r + 1)))
      rw [Nat.succ_eq_add_one] at this
      omega
    · revert hi; decide

/-- Leaf 6 of 7 is deleted, then leaf 1 without a proof: this needs a remembered leaf in the other half of its tree. -/
example : pollardRemember 7 [1, 2] [6] [] 1 = .ok (List.replicate 11 true) ∧ pollardRemember 7 [1] [6] [] 1 = .error .ub := by decide +kernel

end Examples32

end Utreexo
