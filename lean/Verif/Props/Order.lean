import Verif.Proof.Settle
import Verif.Props.Pollard

/-!
# Where the leaves are after a deletion: C56

C18 leaves the order of the remaining leaves open. Here it is given by `Spec.deleteLeaves`, a rule on lists that does not mention
positions, swaps or hashes. With it the roots of forest and pollard are a computable function of the blocks.
-/

set_option linter.unusedSectionVars false

namespace Utreexo
open Spec Equiv

variable {H : Type} [DecidableEq H] [HashOps H]

namespace Ram

/-- Calls of `Modify` one after the other: leaves to add and targets. -/
def calls : List (List (Leaf H) × List ℕ) → RamForest H → Res (RamForest H)
  | [], s => .ok s
  | c :: cs, s => do
    match ← modify s c.1 c.2 with
    | (true, _, s') => calls cs s'
    | _ => .error .exc

/-- The leaves after one call. -/
def leavesAfter (L : List H) (c : List (Leaf H) × List ℕ) : List H := deleteLeaves L c.2 ++ c.1.map Prod.fst

/-- Each call has arguments that fit the leaves at the time. -/
def ValidCalls : List H → List (List (Leaf H) × List ℕ) → Prop
  | _, [] => True
  | L, c :: cs => Valid L (c.1.map Prod.fst) c.2 ∧ ValidCalls (leavesAfter L c) cs

end Ram

open Ram

/-! ## The rule itself -/

/-- C56: the rule keeps exactly the leaves that are not deleted. -/
theorem C56_survivors (L : List H) (D : List ℕ) (hs : D.Pairwise (· < ·)) (hb : ∀ t ∈ D, t < L.length) (hl : L.length ≤ 2 ^ 62) :
    (deleteLeaves L D).Perm (survivors L D) := by
  have hL : L = (List.range L.length).map (leafFn HashOps.zero L) := by
    apply List.ext_getElem
    · simp
    · intro i h1 h2
      simp only [List.getElem_map, List.getElem_range, leafFn]
      rw [List.getD_eq_getElem?_getD, List.getElem?_eq_getElem h1]; rfl
  have hlen : D.length ≤ L.length := by
    have := sorted_length_add_le D 0 L.length hs (fun x hx => ⟨Nat.zero_le _, hb x hx⟩) (Nat.zero_le _)
    omega
  obtain ⟨f1, f2⟩ := sg_facts hl hs hb
  have h1 := Settle.deleteLeaves_eq hs hb (le_two_pow_numRows (by omega)) (n' := L.length - D.length) (by omega)
    (leafFn HashOps.zero L)
  have h2 := survivors_range L.length (leafFn HashOps.zero L) D
  rw [← hL] at h1 h2
  rw [h1, h2, ← List.map_map]
  exact (range_perm f1 (Nat.sub_le _ _) f2).map _

/-- C56: if nothing is deleted nothing moves. -/
theorem C56_nothing (L : List H) (hl : L.length ≤ 2 ^ 62) : deleteLeaves L [] = L := by
  have hL : L = (List.range L.length).map (leafFn HashOps.zero L) := by
    apply List.ext_getElem
    · simp
    · intro i h1 h2
      simp only [List.getElem_map, List.getElem_range, leafFn]
      rw [List.getD_eq_getElem?_getD, List.getElem?_eq_getElem h1]; rfl
  have h1 := Settle.deleteLeaves_eq (D := []) (n := L.length) (by simp) (by simp) (le_two_pow_numRows (by omega)) (n' := L.length)
    (by simp) (leafFn HashOps.zero L)
  have hi := rowInv (D := []) (n := L.length) (by simp) (by simp) (n' := L.length) (by simp)
  have hsg := nil_sg hi (le_two_pow_numRows (by omega)) (St.numRows L.length) 0 (by omega) rfl
  rw [hsg] at h1
  rw [← hL] at h1
  exact h1.trans hL.symm

/-! ## Forest -/

/-- C56: after `Modify` with valid arguments the forest holds the remaining leaves in the order of the rule, followed by the
additions. -/
theorem C56_order (s : RamForest H) (st : List (UndoBatch H × RamForest H)) (h : Run s st) (L : List H)
    (hL : Represents s L) (leaves : List (Leaf H)) (targets : List ℕ) (hv : Valid L (leaves.map Prod.fst) targets) :
    ∃ u s', modify s leaves targets = .ok (true, some u, s') ∧ Run s' ((u, s) :: st) ∧
      Represents s' (deleteLeaves L targets ++ leaves.map Prod.fst) := by
  obtain ⟨n, f, h1, h2, h3⟩ := h.inv
  have e := hL.unique (h1.represents h2)
  subst e
  obtain ⟨s', g, k1, k2, k3, k4⟩ := modify_step h1 h2 h3 hv
  have hb : ∀ t ∈ targets, t < n := fun t ht => by simpa using hv.bound t ht
  have hlen : targets.length ≤ n := by
    have := sorted_length_add_le targets 0 n hv.sorted (fun x hx => ⟨Nat.zero_le _, hb x hx⟩) (Nat.zero_le _)
    omega
  have hT : n - targets.length + leaves.length ≤ 2 ^ 62 := by simpa using hv.total
  refine ⟨_, s', k1, Run.modify h hL hv k1, ?_⟩
  have := k2.represents hT
  rw [k4, ← Settle.deleteLeaves_eq hv.sorted hb (le_two_pow_numRows (by omega)) (by omega)] at this
  exact this

/-- C56: the same over any number of calls. -/
theorem C56_calls (s : RamForest H) (st : List (UndoBatch H × RamForest H)) (h : Run s st) (L : List H) (hL : Represents s L)
    (cs : List (List (Leaf H) × List ℕ)) (hv : ValidCalls L cs) :
    ∃ s' st', calls cs s = .ok s' ∧ Run s' st' ∧ Represents s' (cs.foldl leavesAfter L) := by
  induction cs generalizing s st L with
  | nil => exact ⟨s, st, rfl, h, hL⟩
  | cons c cs ih =>
    obtain ⟨u, s1, e1, e2, e3⟩ := C56_order s st h L hL c.1 c.2 hv.1
    obtain ⟨s', st', g1, g2, g3⟩ := ih s1 _ e2 _ e3 hv.2
    refine ⟨s', st', ?_, g2, g3⟩
    rw [calls, e1, ok_bind]
    exact g1

/-- C56: two forests that hold the same leaves stay the same to every caller under the same calls, whatever each of them went
through before (deletions, undone blocks, restarts). -/
theorem C56_deterministic (s t : RamForest H) (st tt : List (UndoBatch H × RamForest H)) (hs : Run s st) (ht : Run t tt) (h : Same s t)
    (L : List H) (hL : Represents s L) (cs : List (List (Leaf H) × List ℕ)) (hv : ValidCalls L cs) :
    ∃ s' t', calls cs s = .ok s' ∧ calls cs t = .ok t' ∧ Same s' t' := by
  have hL' : Represents t L := by
    refine ⟨by rw [← h.count]; exact hL.count, ?_, by rw [← h.roots]; exact hL.roots, by rw [← h.size]; exact hL.size, ?_⟩
    · intro i x hx; rw [← h.leaf]; exact hL.leaf i x hx
    · intro x p; rw [← h.find]; exact hL.find x p
  obtain ⟨s', _, a1, -, a3⟩ := C56_calls s st hs L hL cs hv
  obtain ⟨t', _, b1, -, b3⟩ := C56_calls t tt ht L hL' cs hv
  exact ⟨s', t', a1, b1, a3.same b3⟩

/-! ## Pollard -/

/-- C56: after a block whose deletions a pollard verified its roots are those of the leaves in the order of the rule. -/
theorem C56_pollard (F : RamForest H) (st : List (UndoBatch H × RamForest H)) (p : Pollard H) (h : Pol.Sync F st p) (L : List H)
    (hL : Represents F L) (V : H → Prop) (p1 : Pollard H) (hV : Pol.Verifies L p V p1) (leaves : List (Leaf H)) (D : List ℕ)
    (hv : Valid L (leaves.map Prod.fst) D) (hD : Pol.Deletable L V p1 D) (p2 : Pollard H)
    (hm : Pol.modify p1 leaves D = .ok (true, p2)) :
    p2.numLeaves = L.length - D.length + leaves.length ∧
      Pol.roots p2 = .ok (merkleRoots HashOps.ph (leafFn HashOps.zero (deleteLeaves L D ++ leaves.map Prod.fst))
        (deleteLeaves L D ++ leaves.map Prod.fst).length) := by
  obtain ⟨L0, A, hI⟩ := h.inv
  obtain ⟨u, F', e1, -, e3⟩ := C56_order F st hI.run L hL leaves D hv
  have hS := Pol.Sync.later h hL hV hv rfl hD e1 hm
  obtain ⟨k1, rs, k2, k3⟩ := C23_agree F' _ p2 hS
  have hlen : (deleteLeaves L D).length = L.length - D.length := by
    obtain ⟨L0, hL0, -, hl⟩ := C16_represents F st hI.run
    obtain rfl := hL.unique hL0
    have := Settle.deleteLeaves_eq hv.sorted hv.bound (le_two_pow_numRows (by omega)) (n' := L.length - D.length) (by
      have := sorted_length_add_le D 0 L.length hv.sorted (fun x hx => ⟨Nat.zero_le _, hv.bound x hx⟩) (Nat.zero_le _)
      omega) (leafFn HashOps.zero L)
    have hL' : L = (List.range L.length).map (leafFn HashOps.zero L) := by
      apply List.ext_getElem
      · simp
      · intro i h1 h2
        simp only [List.getElem_map, List.getElem_range, leafFn]
        rw [List.getD_eq_getElem?_getD, List.getElem?_eq_getElem h1]; rfl
    rw [← hL'] at this
    rw [this]; simp
  refine ⟨?_, ?_⟩
  · rw [k1, e3.count, List.length_append, hlen, List.length_map]
  · rw [k3, ← e3.roots, k2]

namespace Pol

/-- Positions of the leaves to delete. -/
def positions (L dels : List H) : List ℕ := (List.range L.length).filter fun i => L[i]?.any dels.contains

/-- The leaves after a block, in order. -/
def afterBlock (L : List H) (b : Block H) : List H := deleteLeaves L (positions L b.dels) ++ b.adds.map Prod.fst

theorem Applied.sorted_eq {F : RamForest H} {p : Pollard H} {L : List H} {b : Block H} {proof : BatchProof H} {hs : List H}
    {p1 : Pollard H} {u : UndoBatch H} {F' : RamForest H} {p' : Pollard H} {L' : List H}
    (h : Applied F p L b proof hs p1 u F' p' L') (hnd : L.Nodup) : proof.sorted = positions L b.dels := by
  apply Settle.sorted_ext h.valid.sorted (List.Pairwise.filter _ List.pairwise_lt_range)
  intro t
  have key : ∀ ht : t < L.length, t ∈ proof.sorted ↔ L[t] ∈ b.dels := by
    intro ht
    have h1 : L[t] ∈ survivors L proof.sorted ↔ L[t] ∈ L.filter fun x => !b.dels.contains x := by rw [h.surv]
    have h2 : L[t] ∈ survivors L proof.sorted ↔ t ∉ proof.sorted := by
      unfold survivors
      rw [List.mem_map]
      constructor
      · rintro ⟨⟨x, i⟩, h1, rfl⟩
        obtain ⟨h1, h3⟩ := List.mem_filter.1 h1
        have hx := List.mem_zipIdx_iff_getElem?.1 h1
        have := (List.getElem?_inj ht hnd).1 ((List.getElem?_eq_getElem ht).trans hx.symm)
        simp only at this
        subst this
        simpa using h3
      · intro hn
        exact ⟨(L[t], t), List.mem_filter.2 ⟨List.mem_zipIdx_iff_getElem?.2 (List.getElem?_eq_getElem ht), by simpa using hn⟩, rfl⟩
    have h3 : (L[t] ∈ L.filter fun x => !b.dels.contains x) ↔ L[t] ∉ b.dels := by simp
    have := h2.symm.trans (h1.trans h3)
    exact not_iff_not.1 this
  rw [List.mem_filter, List.mem_range]
  constructor
  · intro ht
    have hlt := h.valid.bound t ht
    refine ⟨hlt, ?_⟩
    rw [List.getElem?_eq_getElem hlt]
    simpa using (key hlt).1 ht
  · rintro ⟨hlt, hd⟩
    rw [List.getElem?_eq_getElem hlt] at hd
    exact (key hlt).2 (by simpa using hd)

end Pol

open Pol

/-- Playing blocks keeps forest and pollard together and gives the leaves in the order of the rule. -/
theorem Pol.play_order : ∀ (bs : List (Block H)) (S L : List H) (F : RamForest H) (st : List (UndoBatch H × RamForest H)) (p : Pollard H),
    Sync F st p → Represents F L → L.Perm S → ValidBlocks S bs →
    ∃ F' st' p', play bs F p = .ok (F', p') ∧ Sync F' st' p' ∧ Represents F' (bs.foldl afterBlock L) := by
  intro bs
  induction bs with
  | nil => intro S L F st p h hL hS _; exact ⟨F, st, p, rfl, h, hL⟩
  | cons b bs ih =>
    rintro S L F st p h hL hS ⟨h1, h2, h3, h4, h5, h6, h7⟩
    obtain ⟨F1, u1, p1, L1, e1, e2, e3, e4, proof, hs, q, ha⟩ := play_step h hL hS h1 h2 h3 h4 h5 h6
    obtain ⟨L0, A, hI⟩ := h.inv
    obtain ⟨L2, hL2, hnd, -⟩ := C16_represents F st hI.run
    obtain rfl := hL.unique hL2
    obtain ⟨u, F2, g1, -, g3⟩ := C56_order F st hI.run L hL _ _ ha.valid
    rw [ha.forest] at g1
    injection g1 with g1
    simp only [Prod.mk.injEq, true_and] at g1
    obtain ⟨-, rfl⟩ := g1
    have hA : ((b.adds.map fun a => (a.1, a.2.1)).map Prod.fst) = b.adds.map Prod.fst := by rw [List.map_map]; rfl
    rw [ha.sorted_eq hnd, hA] at g3
    have e5 : L1 = afterBlock L b := e3.unique g3
    subst e5
    obtain ⟨F', st', p', k1, k2, k3⟩ := ih _ _ _ _ _ e2 e3 e4 h7
    refine ⟨F', st', p', ?_, k2, k3⟩
    rw [play, e1, ok_bind]; exact k1

/-- C56: over every history of valid blocks the forest holds the leaves computed by the rule from the blocks alone, and forest and
pollard report the Merkle roots of that list. In particular the roots do not depend on what the pollard remembers. -/
theorem C56_history (bs : List (Block H)) (hv : ValidBlocks [] bs) :
    ∃ F p, play bs (Ram.mk 0) (Pol.mk 0) = .ok (F, p) ∧ Represents F (bs.foldl afterBlock []) ∧
      p.numLeaves = (bs.foldl afterBlock []).length ∧
      Pol.roots p = .ok (merkleRoots HashOps.ph (leafFn HashOps.zero (bs.foldl afterBlock [])) (bs.foldl afterBlock []).length) := by
  obtain ⟨F, st, p, e1, e2, e3⟩ := play_order bs [] [] _ _ _ Sync.empty
    (Ram.mk_inv.represents (f := leafFn HashOps.zero []) (by omega)) (List.Perm.refl _) hv
  obtain ⟨k1, rs, k2, k3⟩ := C23_agree F st p e2
  refine ⟨F, p, e1, e3, by rw [k1, e3.count], ?_⟩
  rw [k3, ← e3.roots, k2]

/-! ## Concrete cases -/

section Examples

attribute [local instance] toyOps

/-- A case of `C56_calls`: twelve leaves, four deletions of which two are siblings, two additions, then three deletions. -/
def toyCalls : List (List (Leaf ℕ) × List ℕ) :=
  [((List.range 12).map fun i => (10 + i, false), []), ([(31, false), (32, true)], [1, 4, 5, 11]), ([], [0, 7, 9])]

example : ValidCalls [] toyCalls :=
  ⟨⟨by decide, by decide, by decide, by decide, by decide, by decide⟩, ⟨by decide, by decide, by decide, by decide, by decide, by decide⟩,
    ⟨by decide, by decide, by decide, by decide, by decide, by decide⟩, trivial⟩

example : toyCalls.foldl leavesAfter [] = [16, 20, 12, 13, 18, 19, 31] := by decide

example : (do let s ← calls toyCalls (Ram.mk 0)
              return [← getLeaf s 0, ← getLeaf s 1, ← getLeaf s 2, ← getLeaf s 3, ← getLeaf s 4, ← getLeaf s 5, ← getLeaf s 6]) =
    .ok [16, 20, 12, 13, 18, 19, 31] := by decide +kernel

example : toyBlocks.foldl afterBlock [] = [13, 17, 14] := by decide

/-- C56: the order does matter. Deleting two of eight leaves in one call gives other roots than deleting them in two calls, so
nodes must agree on what a block is. -/
theorem C56_split_witness :
    (do let s ← calls [((List.range 8).map fun i => (10 + i, false), []), ([], [0, 2])] (Ram.mk 0)
        let t ← calls [((List.range 8).map fun i => (10 + i, false), []), ([], [0]), ([], [4])] (Ram.mk 0)
        return ([← getLeaf s 4, ← getLeaf s 5], [← getLeaf t 4, ← getLeaf t 5], decide (Ram.roots s = Ram.roots t))) =
      .ok ([13, 11], [11, 13], false) := by decide +kernel

end Examples

end Utreexo
