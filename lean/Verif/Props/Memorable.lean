import Verif.Props.Kept
import Verif.Props.Single

/-!
# C79: the tests about remembered leaves, with the number of nodes and the deletion without a proof
-/

set_option linter.unusedSectionVars false

namespace Utreexo
open Spec Equiv Pol

section Any
variable [HashOps Hash32]
open Suite Bench
attribute [-instance] Subtype.instBEq

theorem Suite.Start.tidy {n : ℕ} {rem : List ℕ} {u : UndoBatch Hash32} {F : RamForest Hash32} {p : Pollard Hash32}
    (h : Start n rem u F p) (hn : n < 2 ^ 31) : Tidy F [(u, Ram.mk 0)] p := by
  have h0 : Ram.Represents (Ram.mk 0 : RamForest Hash32) [] := Ram.mk_inv.represents (f := leafFn HashOps.zero []) (by omega)
  have hv : Ram.Valid ([] : List Hash32) ((leavesOf n rem).map Prod.fst) [] := by
    rw [leavesOf_fst]
    refine ⟨List.Pairwise.nil, by simp, hashesOf_nodup (by omega), by simp [survivors], by simp, ?_⟩
    rw [hashesOf_length]
    simp only [List.length_nil]
    omega
  exact Tidy.later Tidy.empty h0 Verifies.none hv rfl (.inl (by simp)) (fun _ hx => hx.elim) h.made h.grown

/-- A remembered leaf of the tests can be read. -/
theorem Suite.Start.seen {n : ℕ} {rem : List ℕ} {u : UndoBatch Hash32} {F : RamForest Hash32} {p : Pollard Hash32}
    (h : Start n rem u F p) (hn : n < 2 ^ 31) {i : ℕ} (hi : i < n) (hr : i ∈ rem) : Pol.read p i = .ok (some (setHash i)) := by
  have hR := h.recorded hn
  have hg : (hashesOf n)[i]? = some (setHash i) := hashesOf_get hi
  rw [(C30_record F _ p _ hR _ h.rep).2.1 i _ hg]
  have hmemR : (setHash i, true) ∈ leavesOf n rem := by
    unfold leavesOf
    exact List.mem_map.2 ⟨i, List.mem_range.2 hi, by simp [hr]⟩
  have : (Memo.block Memo.empty [] 0 (leavesOf n rem) (hashesOf n)).seen (setHash i) = true := by
    simp only [Memo.block]
    have : beside ((hashesOf n).take (([] : List Hash32).length - 0)) (setHash i) = none := by
      unfold beside
      simp
    rw [this]
    simp only [Option.isSome_none, Bool.false_eq_true, if_false]
    cases beside (hashesOf n) (setHash i) with
    | none => simpa using List.mem_of_getElem? hg
    | some g => simp [hmemR]
  rw [this]
  rfl

/-- The nodes that a pollard has after adding `n` leaves of which it remembers those in the list: the roots, the siblings of the nodes
above remembered leaves, and the remembered leaves. -/
def Suite.needed (n : ℕ) (rem : List ℕ) (r i : ℕ) : Bool :=
  decide (n < (i / 2 + 1) * 2 ^ (r + 1)) || rem.any fun t => t / 2 ^ r == i ^^^ 1 || (r == 0 && t == i)

/-- The number of these nodes. -/
def Suite.nodesNeeded (n : ℕ) (rem : List ℕ) : ℕ :=
  ((List.range 64).map fun r => (List.range (n / 2 ^ r)).countP (needed n rem r)).sum

theorem Suite.Start.nodes {n : ℕ} {rem : List ℕ} {u : UndoBatch Hash32} {F : RamForest Hash32} {p : Pollard Hash32}
    (h : Start n rem u F p) (hn : n < 2 ^ 31) (hr : ∀ i ∈ rem, i < n) : countNodes p = nodesNeeded n rem := by
  rw [C81_count F _ p h.held.sync _ h.rep]
  unfold nodesNeeded
  rw [hashesOf_length]
  congr 1
  apply List.map_congr_left
  intro r _
  apply List.countP_congr
  intro i hi
  have hin : InForest (hashesOf n).length r i := by
    rw [hashesOf_length]
    exact inForest_iff.2 (List.mem_range.1 hi)
  obtain ⟨k1, k2⟩ := C81_kept F _ _ p _ h.held (h.tidy hn) _ h.rep r i hin
  rw [decide_eq_true_eq]
  unfold needed
  rw [Bool.or_eq_true, decide_eq_true_eq, List.any_eq_true]
  simp only [Bool.or_eq_true, beq_iff_eq, Bool.and_eq_true]
  by_cases hroot : InForest (hashesOf n).length (r + 1) (i / 2)
  · have hlt : ¬ n < (i / 2 + 1) * 2 ^ (r + 1) := by
      unfold InForest at hroot
      rw [hashesOf_length] at hroot
      omega
    rw [or_iff_right hlt]
    obtain ⟨k3, k4⟩ := k2 hroot
    constructor
    · intro hrd
      by_contra hc
      rw [k4] at hrd
      · simp at hrd
      · rintro ⟨t, a, q1, ⟨j, q2, q3⟩, q4⟩
        obtain rfl : t = j := get_inj (hashesOf_nodup (by omega)) q1 (by rw [q3]; exact hashesOf_get (hr j q2))
        exact hc ⟨t, q2, q4⟩
    · rintro ⟨t, q2, q4 | ⟨rfl, rfl⟩⟩
      · exact k3 ⟨t, _, hashesOf_get (hr t q2), ⟨t, q2, rfl⟩, q4⟩
      · have h2 : at' (hashesOf n) 0 t = t := by unfold at'; exact posOf_zero _ _
        have h3 : node (hashesOf n) 0 t = setHash t := by
          unfold node
          rw [(leafFn_get.1 (hashesOf_get (hr t q2))).2.symm]; rfl
        rw [h2, h3]
        exact h.seen hn (hr t q2) q2
  · have hlt : n < (i / 2 + 1) * 2 ^ (r + 1) := by
      unfold InForest at hroot
      rw [hashesOf_length] at hroot
      omega
    exact iff_of_true (k1 hroot) (.inl hlt)

/-- C79: the test `simple_posmap_updates` for every number of leaves, every set of remembered leaves and every leaf of the set that is
deleted passes exactly if it expects the number of nodes that the remembered leaves need. -/
theorem C79_posmap_nodes (n : ℕ) (hn : n < 2 ^ 31) (rem : List ℕ) (hnd : rem.Nodup) (hr : ∀ i ∈ rem, i < n) (t : ℕ) (ht : t ∈ rem)
    (nodes : ℕ) : simplePosmapUpdates n rem nodes t =
      .ok [true, true, nodesNeeded n rem == nodes, true, true, true, true, true, true, true] := by
  obtain ⟨F, p, h1, h2⟩ := C79_posmap n hn rem hnd hr t ht nodes
  obtain ⟨u, F', p', k1, k2⟩ := setup_ok hn hr
  rw [h1] at k1
  simp only [Except.ok.injEq, Prod.mk.injEq, true_and] at k1
  obtain ⟨rfl, rfl⟩ := k1
  rw [h2, k2.nodes hn hr]

/-- C79: the test `add_memorable_and_remove`, which deletes the only leaf remembered without a proof, for every number of leaves and
every leaf. Let `k` be the height of the smallest tree. The test passes if the leaf's tree has at most height `k`, or height 1;
for all other leaves it has undefined behaviour. -/
theorem C79_memorable (n : ℕ) (hn : n < 2 ^ 31) (t : ℕ) (ht : t < n) (k : ℕ) (hk : 2 ^ k ∣ n) (hk' : ¬ 2 ^ (k + 1) ∣ n) :
    (¬ InForest n (max k 1 + 1) (t / 2 ^ (max k 1 + 1)) → addMemorableAndRemove n t = .ok [true, true, true, true, true]) ∧
    (InForest n (max k 1 + 1) (t / 2 ^ (max k 1 + 1)) → addMemorableAndRemove n t = .error .ub) := by
  have hb : ∀ i ∈ [t], i < n := by simpa using ht
  obtain ⟨u, F, p, h1, h2⟩ := setup_ok hn hb
  have hg : (hashesOf n)[t]? = some (setHash t) := hashesOf_get ht
  obtain ⟨proof, g1, -⟩ := C30_partial F _ p _ _ h2.track ([t].map setHash) (by simp) (by simp)
  have hc : numCachedLeaves p = 1 := C42_held F _ p _ h2.held [setHash t] (by simp) (by simp)
  have hv : Ram.Valid (hashesOf n) (([] : List (Leaf Hash32)).map Prod.fst) [t] := valid_del hn (by simp) hb
  have hex := C53_tidy F _ _ p _ h2.held (h2.tidy hn) _ h2.rep [] [] t hv rfl ⟨_, hg, ⟨t, by simp, rfl⟩⟩ k
    (by rw [hashesOf_length]; exact hk) (by rw [hashesOf_length]; exact hk')
  have hne : ∀ r, ¬ ∃ (s : ℕ) (b : Hash32), (hashesOf n)[s]? = some b ∧ (∃ i ∈ [t], b = setHash i) ∧ s / 2 ^ r = t / 2 ^ r ^^^ 1 := by
    rintro r ⟨s, b, q1, ⟨i, q2, rfl⟩, q3⟩
    rw [List.mem_singleton] at q2
    subst q2
    obtain rfl := get_inj (hashesOf_nodup (by omega)) q1 hg
    have := xor_one_cases (s / 2 ^ r)
    split at this <;> omega
  have hdown : ∀ r q, r ≤ q → InForest n q (t / 2 ^ q) → InForest n r (t / 2 ^ r) := by
    intro r q hrq
    induction q, hrq using Nat.le_induction with
    | base => exact id
    | succ q _ ih =>
      intro hh
      refine ih (self_in (i := t / 2 ^ q) ?_)
      rw [Nat.div_div_eq_div_mul, ← pow_succ]
      exact hh
  have hrun : addMemorableAndRemove n t = (Pol.modify p [] [t]).bind fun x => .ok [true, true, true, true, x.1] := by
    unfold addMemorableAndRemove
    rw [h1, ok_bind]
    dsimp only
    rw [hashesAt_ok _ _ hb, ok_bind, g1, ok_bind, hc]
    rfl
  rw [hrun]
  rw [hashesOf_length] at hex
  constructor
  · intro hin
    obtain ⟨u', F', p', L', rs, -, e, -⟩ := hex.1 (fun _ => by rw [h2.seen hn ht (by simp)]; simp) (by
      intro r hr hr0 hi
      exact absurd (hdown _ _ (by omega) hi) hin)
    rw [e]
    rfl
  · intro hin
    obtain ⟨-, e⟩ := hex.2 (by
      rintro ⟨-, hh⟩
      exact hne _ (hh (max k 1) (by omega) (by omega) hin))
    rw [e]
    rfl

end Any

/-! ## Concrete cases -/

section Examples32
open Suite
attribute [local instance] toyOps32

/-- The test expects ten nodes for the leaves 0 and 7 of 16. -/
example : nodesNeeded 16 [0, 7] = 10 := by decide

/-- The values of the test: 8 leaves are a single tree. -/
example : addMemorableAndRemove 8 0 = .ok [true, true, true, true, true] :=
  (C79_memorable 8 (by decide) 0 (by decide) 3 (by decide) (by decide)).1 (by unfold InForest; decide)

/-- One leaf more, and the test would crash; also for leaf 0 of 12. -/
example : addMemorableAndRemove 9 0 = .error .ub ∧ addMemorableAndRemove 12 0 = .error .ub ∧
    addMemorableAndRemove 11 8 = .ok [true, true, true, true, true] :=
  ⟨(C79_memorable 9 (by decide) 0 (by decide) 0 (by decide) (by decide)).2 (by unfold InForest; decide),
    (C79_memorable 12 (by decide) 0 (by decide) 2 (by decide) (by decide)).2 (by unfold InForest; decide),
    (C79_memorable 11 (by decide) 8 (by decide) 0 (by decide) (by decide)).1 (by unfold InForest; decide)⟩

example : addMemorableAndRemove 9 0 = .error .ub ∧ addMemorableAndRemove 11 8 = .ok [true, true, true, true, true] := by decide +kernel

end Examples32

end Utreexo
