import Verif.Props.Memory
import Verif.Props.Compare
import Verif.Proof.PolSelf
import Verif.Proof.SelfPol
import Verif.Proof.SelfRam

/-!
# The self-checks of a `UTREEXO_VERIFY` build

C51: in a build with `UTREEXO_VERIFY` the checks (`CHECK_SAFE`) do not fire. The functions ending in `V` are those with the
checks (`Verif/Model/Checked.lean`).
-/

set_option linter.unusedSectionVars false

namespace Utreexo
open Spec Equiv

variable {H : Type} [DecidableEq H] [HashOps H]

namespace Acc
variable {N X : Type}

theorem removeV_insane (vtV : VT H N X) (s : Acc H N X) (targets : List ℕ)
    (h : ¬ (targets.Pairwise (· < ·) ∧ ∀ t ∈ targets, t < s.numLeaves)) : removeV vtV s targets = .ok (false, s) := by
  unfold removeV
  have h0 : targets.length ≠ 0 := by
    intro h0
    rw [List.length_eq_zero_iff] at h0
    subst h0
    exact h ⟨List.Pairwise.nil, by simp⟩
  rw [if_neg h0]
  dsimp only
  obtain ⟨b, hb1, hb2⟩ := C07_checkTargetsSanity s.numLeaves targets
  rw [hb1, ok_bind]
  cases b with
  | false => rfl
  | true => exact absurd (hb2.1 rfl) h

theorem addV_eq (vt : VT H N X) (s : Acc H N X) (leaves : List (Leaf H)) (h : ∀ l ∈ leaves, PosMap.find s.posmap l.1 = none) :
    addV vt s leaves = add vt s leaves := by
  unfold addV
  have : (leaves.all fun l => (PosMap.find s.posmap l.1).isNone) = true := by
    rw [List.all_eq_true]
    intro l hl
    rw [h l hl]; rfl
  rw [this]
  rfl

end Acc

open Ram in
/-- C51: the checks do not fire in a modification of a forest. -/
theorem C51_forest_modify (s : RamForest H) (st : List (UndoBatch H × RamForest H)) (h : Run s st) (L : List H)
    (hL : Represents s L) (leaves : List (Leaf H)) (targets : List ℕ) (hv : Valid L (leaves.map Prod.fst) targets) :
    ∃ u s', Ram.modify s leaves targets = .ok (true, some u, s') ∧ Ram.modifyV s leaves targets = .ok (true, some u, s') := by
  obtain ⟨n, f, h1, h2, h3⟩ := h.inv
  obtain rfl := hL.unique (h1.represents h2)
  have hb : ∀ t ∈ targets, t < n := fun t ht => by simpa using hv.bound t ht
  obtain ⟨s', g, k1, -⟩ := modify_step h1 h2 h3 hv
  refine ⟨_, s', k1, ?_⟩
  obtain ⟨s1, e1, e2, -⟩ := remove_ok h1 h2 (calm_small (fun hd => by simpa using hv.size hd) h2 hv.sorted hb) hv.sorted hb
  obtain ⟨f1, f2⟩ := sg_facts h2 hv.sorted hb
  unfold Ram.modify at k1
  unfold Ram.modifyV
  rw [Acc.remove_sim (Ram.agree h2) h2 s h1.num targets _ e1]
  rw [e1] at k1
  simp only [ok_bind, Bool.not_true, Bool.false_eq_true, if_false] at k1 ⊢
  cases hu : buildUndoBatch s1 leaves.length targets with
  | error e => rw [hu] at k1; cases k1
  | ok o =>
    rw [hu] at k1
    simp only [ok_bind] at k1 ⊢
    cases o with
    | none => exact k1
    | some u =>
      simp only at k1 ⊢
      have ha : Ram.addV s1 leaves = Ram.add s1 leaves := by
        unfold Ram.addV Ram.add
        dsimp only
        cases prealloc (wrap64 (s1.numLeaves + leaves.length)) 0 (St.numRows (wrap64 (s1.numLeaves + leaves.length)) + 1) s1.ext with
        | error e => rfl
        | ok data =>
          simp only [ok_bind]
          rw [Acc.addV_eq]
          intro l hl
          by_contra hc
          obtain ⟨p, hp⟩ := Option.ne_none_iff_exists'.1 hc
          have hp' : PosMap.find s1.posmap l.1 = some p := hp
          obtain ⟨q1, q2⟩ := (e2.pos.find _ _).1 hp'
          have hmem : l.1 ∈ survivors ((List.range n).map f) targets := by
            rw [survivors_range]
            have := (range_perm f1 (by omega) f2).map f
            rw [← this.mem_iff, ← q2, List.map_map]
            exact List.mem_map.2 ⟨p, List.mem_range.2 q1, rfl⟩
          exact hv.fresh _ hmem (List.mem_map_of_mem hl)
      rw [ha]
      exact k1

open Ram in
/-- C51: nor in a rejected one. -/
theorem C51_forest_rejected (s : RamForest H) (leaves : List (Leaf H)) (targets : List ℕ)
    (hns : ¬ (targets.Pairwise (· < ·) ∧ ∀ t ∈ targets, t < s.numLeaves)) :
    Ram.modify s leaves targets = .ok (false, none, s) ∧ Ram.modifyV s leaves targets = .ok (false, none, s) := by
  refine ⟨Ram.modify_insane s leaves targets hns, ?_⟩
  unfold Ram.modifyV
  rw [Acc.removeV_insane _ _ _ hns]
  rfl

open Ram in
/-- C51: the checks do not fire when the last modification is undone and the forest to be restored has fewer than `2^31` leaves
(the second check counts them in an `int`). -/
theorem C51_forest_undo (s s0 : RamForest H) (u : UndoBatch H) (st : List (UndoBatch H × RamForest H))
    (h : Run s ((u, s0) :: st)) (hsz : s0.numLeaves < 2 ^ 31) :
    ∃ s', Ram.undo s u = .ok (true, s') ∧ Ram.undoV s u = .ok (true, s') := by
  obtain ⟨n, g, h1, h2, n0, f0, D, a, rfl, i2, i3, i4, i5, rfl, i7, i8, -⟩ := h.inv
  obtain ⟨s', k1, k2, -⟩ := undo_ok i2 i3 i4 (fun x y hx hy he => i5.pos.inj hx hy he) h1 h2 i7 i8
  refine ⟨s', k1, undoV_ok (n := n0) (f := f0) (by rw [← i5.num]; exact hsz) ?_ i3 i4 k1 k2 (by omega)⟩
  have hlen : D.length ≤ n0 := by
    have := sorted_length_add_le D 0 n0 i3 (fun x hx => ⟨Nat.zero_le _, i4 x hx⟩) (Nat.zero_le _)
    omega
  change sub64 (wrap64 (s.numLeaves + D.length)) a = n0
  rw [h1.num, wrap64_ok (by omega), sub64_ok (by omega) (by omega)]
  omega

open Ram in
/-- C51: nor when a foreign batch that fits is undone. -/
theorem C51_forest_foreign (s : RamForest H) (st : List (UndoBatch H × RamForest H)) (h : Run s st) (L : List H)
    (hL : Represents s L) (u : UndoBatch H) (hf : Fits s L u) (hsz : L.length - u.numAdds + u.positions.length < 2 ^ 31) :
    ∃ s', Ram.undo s u = .ok (true, s') ∧ Ram.undoV s u = .ok (true, s') := by
  obtain ⟨n, g, h1, h2, -⟩ := h.inv
  obtain rfl := hL.unique (h1.represents h2)
  obtain ⟨s', f, k1, k2, -⟩ := foreign_step h1 h2 hf
  have hb := hf.bound
  have ha := hf.adds
  simp only [List.length_map, List.length_range] at hb ha hsz
  have hext := h1.cells.rows
  refine ⟨s', k1, undoV_ok hsz ?_ hf.sorted hb k1 k2 (by omega)⟩
  rw [h1.num, wrap64_ok (by omega), sub64_ok (by omega) (by omega)]
  omega

open Pol in
/-- The histories in which rejected proofs do not change the number of remembered leaves, with the leaves
`Q` the pollard was told to remember: a leaf comes in when it is added with the remember flag or verified,
and goes out when it is deleted or when the pollard is pruned. -/
inductive Kept : RamForest H → List (UndoBatch H × RamForest H) → Pollard H → (H → Prop) → Prop
  | empty : Kept (Ram.mk 0) [] (mk 0) (fun _ => False)
  | restored {F : RamForest H} {st : List (UndoBatch H × RamForest H)} {rs : List H} {p : Pollard H} :
      Ram.Run F st → Ram.roots F = .ok rs → fromRoots rs F.numLeaves = .ok p → Kept F st p (fun _ => False)
  | later {F F' : RamForest H} {st : List (UndoBatch H × RamForest H)} {u : UndoBatch H} {p p1 p2 : Pollard H} {L : List H}
      {V : H → Prop} {D : List ℕ} {leaves leaves' : List (Leaf H)} {Q : H → Prop} :
      Kept F st p1 Q → Sync F st p → Ram.Represents F L → Verifies L p V p1 → Ram.Valid L (leaves.map Prod.fst) D →
      leaves'.map Prod.fst = leaves.map Prod.fst → Deletable L V p1 D →
      Ram.modify F leaves D = .ok (true, some u, F') → Pol.modify p1 leaves' D = .ok (true, p2) →
      Kept F' ((u, F) :: st) p2 (fun h => (Q h ∧ h ∈ survivors L D) ∨ (h, true) ∈ leaves')
  | verify {F : RamForest H} {st : List (UndoBatch H × RamForest H)} {p p' : Pollard H} {L : List H}
      {proof : BatchProof H} {hs : List H} {Q : H → Prop} :
      Kept F st p Q → Ram.Represents F L → Pol.verify p proof hs = .ok (true, p') → ¬ Collision p' L →
      Kept F st p' (fun h => Q h ∨ h ∈ hs)
  | refused {F : RamForest H} {st : List (UndoBatch H × RamForest H)} {p p' : Pollard H}
      {proof : BatchProof H} {hs : List H} {Q : H → Prop} :
      Kept F st p Q → Pol.verify p proof hs = .ok (false, p') → numCachedLeaves p' = numCachedLeaves p → Kept F st p' Q
  | prune {F : RamForest H} {st : List (UndoBatch H × RamForest H)} {p p' : Pollard H} {Q : H → Prop} :
      Kept F st p Q → pruneAll p = .ok p' → Kept F st p' (fun _ => False)
  | rejected {F : RamForest H} {st : List (UndoBatch H × RamForest H)} {p p' : Pollard H} {leaves : List (Leaf H)}
      {targets : List ℕ} {b : Bool} {Q : H → Prop} : Kept F st p Q →
      ¬ (targets.Pairwise (· < ·) ∧ ∀ t ∈ targets, t < p.numLeaves) →
      Pol.modify p leaves targets = .ok (b, p') → Kept F st p' Q
  | reopen {F F' : RamForest H} {st st' : List (UndoBatch H × RamForest H)} {p : Pollard H} {Q : H → Prop} : Kept F st p Q →
      Ram.reopen F = .ok F' → st' <+: st → (∀ e ∈ st', e.2.numLeaves ≤ 2 ^ Nat.size F.numLeaves) → Kept F' st' p Q
  | copied {F : RamForest H} {st : List (UndoBatch H × RamForest H)} {p p' : Pollard H} {leaves : List (Leaf H)} {Q : H → Prop} :
      Kept F st p Q → Apart p leaves → Pol.modify p leaves [] = .ok (true, p') →
      Kept F st (copyAfterModify leaves [] p p') Q

open Pol in
theorem Kept.held {F : RamForest H} {st : List (UndoBatch H × RamForest H)} {p : Pollard H} {Q : H → Prop} (h : Kept F st p Q) :
    Held F st p Q := by
  induction h with
  | empty => exact .empty
  | restored h1 h2 h3 => exact .restored h1 h2 h3
  | later _ h0 h1 h2 h3 h4 h5 h6 h7 ih => exact .later ih h0 h1 h2 h3 h4 h5 h6 h7
  | verify _ h1 h2 h3 ih => exact .verify ih h1 h2 h3
  | @refused F st p p' proof hs Q _ h1 h2 ih =>
    classical
    obtain ⟨L, A, hI⟩ := ih.inv
    have h3 := Held.refused (new := fun x => decide (¬ Q x ∧ ∀ g, beside L x = some g → Pol.read p (L.idxOf g) = .ok (some g)))
      ih hI.sync.rep h1 (fun x _ => by rw [decide_eq_true_eq])
    have e : ∀ l : List H, (fun x => Q x ∨ x ∈ l.take (numCachedLeaves p' - numCachedLeaves p)) = Q := by
      intro l
      rw [h2, Nat.sub_self, List.take_zero]
      funext x
      simp
    rw [e] at h3
    exact h3
  | prune _ h1 ih => exact .prune ih h1
  | rejected _ h1 h2 ih => exact .rejected ih h1 h2
  | reopen _ h1 h2 h3 ih => exact .reopen ih h1 h2 h3
  | copied _ h1 h2 ih => exact .copied ih h1 h2

namespace Pol

/-- The remembered leaves are known. -/
theorem _root_.Utreexo.Kept.known {F : RamForest H} {st : List (UndoBatch H × RamForest H)} {p : Pollard H} {Q : H → Prop}
    (h : Kept F st p Q) : ∃ K R, Track F st p K R ∧ ∀ h, Q h → K h := by
  induction h with
  | empty => exact ⟨_, _, .empty, fun _ h => h⟩
  | restored h1 h2 h3 => exact ⟨_, _, .restored h1 h2 h3, fun _ h => h⟩
  | @later F F' st u p p1 p2 L V D leaves leaves' Q h0 hs h1 h2 h3 h4 h5 h6 h7 ih =>
    obtain ⟨K, R, hT, hQ⟩ := ih
    obtain ⟨L0, A, hI⟩ := hT.inv
    obtain ⟨L', hL', -⟩ := C16_represents F' ((u, F) :: st) (.modify hI.sync.run h1 h3 h6)
    refine ⟨_, _, .later hT hs h1 h2 h3 h4 h5 h6 h7 hL', ?_⟩
    rintro x (⟨g1, g2⟩ | g1)
    · exact .inl ⟨hQ x g1, g2⟩
    · exact .inr g1
  | verify _ h1 h2 h3 ih =>
    obtain ⟨K, R, hT, hQ⟩ := ih
    refine ⟨_, _, .verify hT h1 h2 (fun _ => h3), ?_⟩
    rintro x (g1 | g1)
    · exact .inl (hQ x g1)
    · exact .inr ⟨rfl, g1⟩
  | refused _ h1 _ ih =>
    obtain ⟨K, R, hT, hQ⟩ := ih
    obtain ⟨L, A, hI⟩ := hT.inv
    exact ⟨_, _, .verify hT hI.sync.rep h1 (by simp), fun x g => .inl (hQ x g)⟩
  | prune _ h1 ih =>
    obtain ⟨K, R, hT, hQ⟩ := ih
    exact ⟨_, _, .prune hT h1, fun _ g => g.elim⟩
  | rejected _ h1 h2 ih =>
    obtain ⟨K, R, hT, hQ⟩ := ih
    exact ⟨_, _, .rejected hT h1 h2, hQ⟩
  | reopen _ h1 h2 h3 ih =>
    obtain ⟨K, R, hT, hQ⟩ := ih
    exact ⟨_, _, .reopen hT h1 h2 h3, hQ⟩
  | copied _ h1 h2 ih =>
    obtain ⟨K, R, hT, hQ⟩ := ih
    exact ⟨_, _, .copied hT h1 h2, hQ⟩

end Pol

open Pol

/-- C51: the checks do not fire when a pollard applies a block whose deletions it has verified since the last block, or when it
remembers every leaf. -/
theorem C51_pollard_modify (F : RamForest H) (st : List (UndoBatch H × RamForest H)) (p p1 : Pollard H) (h : Sync F st p) (L : List H)
    (hL : Ram.Represents F L) (V : H → Prop) (hV : Verifies L p V p1) (leaves : List (Leaf H)) (D : List ℕ)
    (hv : Ram.Valid L (leaves.map Prod.fst) D) (hd : Deletable L V p1 D) :
    ∃ p2, Pol.modify p1 leaves D = .ok (true, p2) ∧ Pol.modifyV p1 leaves D = .ok (true, p2) := by
  obtain ⟨K0, R0, hT0⟩ := h.track
  obtain ⟨K, R, hT⟩ := hT0.verifies hL hV
  obtain ⟨L0, A1, hJ⟩ := hT.inv
  obtain rfl := hL.unique hJ.sync.rep
  obtain ⟨L3, A0, hI0⟩ := h.inv
  obtain rfl := hL.unique hI0.rep
  have hR : D ≠ [] → PresAll L.length A1 D := fun _ => hI0.ready hV hJ.sync hv.bound hd
  obtain ⟨u, F', p2, L', A', k1, k2, -⟩ := block_step hJ.sync hv rfl hR
  refine ⟨p2, k2, ?_⟩
  have hv0 : Ram.Valid L (([] : List (Leaf H)).map Prod.fst) D :=
    ⟨hv.sorted, hv.bound, by simp, by simp, hv.size, by have := hJ.sync.len; simp; omega⟩
  obtain ⟨_, _, q, L0, A0, -, j2, -, -, j5⟩ := block_step (leaves' := []) hJ.sync hv0 rfl hR
  have hn : p1.numLeaves = L.length := hJ.sync.inv.ph.num
  -- removing alone
  have hrem : Acc.remove vt p1 D = .ok (true, q) := by
    unfold Pol.modify Acc.modify at j2
    obtain ⟨⟨b, s1⟩, e1, j2⟩ := bind_eq_ok.1 j2
    cases b with
    | false => cases j2
    | true =>
      rw [e1]
      have : Acc.add vt s1 ([] : List (Leaf H)) = .ok s1 := rfl
      simp only [Bool.not_true, Bool.false_eq_true, if_false, this, ok_bind] at j2
      injection j2 with j2
      injection j2 with _ j2
      rw [j2]
  unfold Pol.modify Acc.modify at k2
  unfold Pol.modifyV
  rw [Acc.remove_sim (Pol.agree hJ.sync.len) hJ.sync.len p1 hn D _ hrem]
  rw [hrem] at k2
  simp only [ok_bind, Bool.not_true, Bool.false_eq_true, if_false] at k2 ⊢
  rw [Acc.addV_eq]
  · exact k2
  · intro l hl
    by_contra hc
    have hd := (j5.dom l.1).1 (Option.ne_none_iff_isSome.1 hc)
    simp only [List.not_mem_nil, or_false] at hd
    obtain ⟨i, hi⟩ := List.mem_iff_getElem?.1 (hJ.sub _ ((hJ.dom _).1 hd.1))
    exact hv.fresh _ (mem_survivors.2 ⟨i, hi, fun hm => hd.2 i hm hi⟩) (List.mem_map_of_mem hl)

/-- C51: nor in a rejected modification. -/
theorem C51_pollard_rejected (p : Pollard H) (leaves : List (Leaf H)) (targets : List ℕ)
    (hns : ¬ (targets.Pairwise (· < ·) ∧ ∀ t ∈ targets, t < p.numLeaves)) :
    Pol.modify p leaves targets = .ok (false, p) ∧ Pol.modifyV p leaves targets = .ok (false, p) := by
  refine ⟨Pol.modify_insane p leaves targets hns, ?_⟩
  unfold Pol.modifyV
  rw [Acc.removeV_insane _ _ _ hns]
  rfl

namespace Pol

theorem readProofV_eq {s : Pollard H} {n : ℕ} (hs : s.numLeaves = n) (hn : n ≤ 2 ^ 62) : ∀ (ps : List ℕ),
    (∀ p ∈ ps, ∃ r i, p = posOf (St.numRows n) r i ∧ i < n / 2 ^ r) → Acc.readProof vtV s ps = Acc.readProof vt s ps := by
  intro ps
  induction ps with
  | nil => intro _; rfl
  | cons p ps ih =>
    intro h
    obtain ⟨r, i, e, hi⟩ := h p (by simp)
    have hr : vtV.read s p = vt.read s p := by
      rw [e]; exact readV_eq hs hn hi
    rw [Acc.readProof, Acc.readProof, hr, ih fun x hx => h x (List.mem_cons_of_mem _ hx)]

end Pol

/-- C51: nor when a pollard proves leaves. -/
theorem C51_pollard_prove (p : Pollard H) (hn : p.numLeaves ≤ 2 ^ 62) (q : List H) :
    Acc.prove Pol.vtV p q = Acc.prove Pol.vt p q := by
  unfold Acc.prove
  cases Acc.lookupTargets p.posmap q with
  | none => rfl
  | some targets =>
    dsimp only
    obtain ⟨b, hb1, hb2⟩ := C07_checkTargetsSanity p.numLeaves (St.sortU64 targets)
    rw [hb1, ok_bind, ok_bind]
    cases b with
    | false => rfl
    | true =>
      obtain ⟨c1, c2⟩ := hb2.1 rfl
      obtain ⟨pf, comp, e, -, -, -, h5⟩ := C08_proofPositions p.numLeaves hn _ c1 c2
      simp only [Bool.not_true, Bool.false_eq_true, if_false]
      rw [e, ok_bind, ok_bind, Pol.readProofV_eq rfl hn]
      intro x hx
      obtain ⟨r, j, b, hb, hf, -, -, rfl⟩ := (h5 x).1 hx
      refine ⟨r, _, rfl, ?_⟩
      rw [inForest_iff, Pol.div_succ_row] at hf
      omega

/-- C51: nor in a verification, for every proof, if no rejected proof has changed the number of remembered leaves before
(see `C51_false`). -/
theorem C51_pollard_verify_partial (F : RamForest H) (st : List (UndoBatch H × RamForest H)) (p : Pollard H) (Q : H → Prop)
    (h : Kept F st p Q) (proof : BatchProof H) (hs : List H) : Pol.verifyV p proof hs = Pol.verify p proof hs := by
  obtain ⟨L, A, hI⟩ := h.held.inv
  obtain ⟨L1, A1, hS, hsp⟩ := h.held.sync.sparse
  obtain ⟨K, R, hT, hQ⟩ := h.known
  obtain ⟨L2, A2, hJ⟩ := hT.inv
  obtain rfl := hI.sync.rep.unique hS.rep
  obtain rfl := hI.sync.rep.unique hJ.sync.rep
  obtain rfl := addr_unique hI.sync.inv hS.inv hI.sync.len
  obtain rfl := addr_unique hI.sync.inv hJ.sync.inv hI.sync.len
  refine verifyV_ok hI.sync.inv hI.sync.len ?_ proof hs
  intro x p' hx
  have hlt : x < L.length := by
    by_contra hc
    rw [hI.sync.inv.out 0 x (by simpa using hc)] at hx
    cases hx
  rcases hsp.leaf hx hlt with h1 | h1 | h1
  · exact .inl h1
  · exact .inr (.inl h1)
  · right; right
    exact (hJ.dom _).2 (hQ _ ((hI.flag x _ (leafFn_get.2 ⟨hlt, rfl⟩)).1 h1))

/-! ## What is not true -/

section Witness
attribute [local instance] toyOps

/-- The leaf of the failing check. A pollard remembers `11` of four leaves. A proof of `12` and a wrong hash is rejected. Then the
leaf `11` is verified and deleted, and a proof of `12` made by the forest is verified with and without checks. -/
def checkRun : Res (Bool × Bool × Res Bool × Res Bool) := do
  let leaves : List (Leaf ℕ) := [(11, true), (12, false), (13, false), (14, false)]
  let (_, _, F) ← Ram.modify (Ram.mk 0) leaves []
  let (_, p) ← Pol.modify (Pol.mk 0) leaves []
  let (r1, p) ← Pol.verify p (BatchProof.mk' [1, 2] [14]) [12, 99]
  let some pf ← Acc.prove Ram.vt F [11] | .error .exc
  let (r2, p) ← Pol.verify p pf [11]
  let (_, _, F) ← Ram.modify F [(15, false)] [0]
  let (_, p) ← Pol.modify p [(15, false)] [0]
  let some pf ← Acc.prove Ram.vt F [12] | .error .exc
  return (r1, r2, (Pol.verify p pf [12]).map Prod.fst, (Pol.verifyV p pf [12]).map Prod.fst)

/-- C51 does not hold without the condition on rejected proofs: a build with checks aborts on a valid proof of a leaf of the forest,
which a build without checks accepts. -/
theorem C51_false : checkRun = .ok (false, true, .ok true, .error .abort) := by decide +kernel

/-- The checks are not vacuous: a pollard that is given a leaf it already remembers stops with checks and goes on without. -/
theorem C51_catches : (do
    let (_, p) ← Pol.modify (Pol.mk 0) [(11, true)] []
    pure ((Pol.modify p [(11, true)] []).map Prod.fst, (Pol.modifyV p [(11, true)] []).map Prod.fst) : Res (Res Bool × Res Bool)) =
      .ok (.ok true, .error .abort) := by decide +kernel

/-- The theorems above apply: after the toy blocks the pollard has remembered leaves, and a valid proof, a valid block and its undo
pass all checks. -/
example : toyAfter (toyBlocks.take 1) (fun F p => do
      let pf ← Acc.prove Ram.vt F [11, 14]
      let some pf := pf | .error .exc
      let (a, p1) ← Pol.verifyV p pf [11, 14]
      let (b, p2) ← Pol.modifyV p1 [(21, true), (14, false)] pf.sorted
      let (c, u, F1) ← Ram.modifyV F [(21, true), (14, false)] pf.sorted
      let some u := u | .error .exc
      let (d, F2) ← Ram.undoV F1 u
      let pq ← Acc.prove Pol.vtV p2 [21]
      return [decide (numCachedLeaves p = 2), a, b, c, d, decide (F2.numLeaves = F.numLeaves), pq.isSome]) =
    .ok [true, true, true, true, true, true, true] := by decide +kernel

end Witness

end Utreexo
