import Verif.Proof.PolCount
import Verif.Model.Checked

/-!
# The self-checks of `VerifyProofTree`

The checked loops do what the unchecked ones do if every cached leaf is a root, has a remembered sibling or
is in the position map.
-/

set_option linter.unusedSectionVars false

namespace Utreexo
open Spec Equiv

variable {H : Type} [DecidableEq H] [HashOps H]

namespace Pol

/-- What the check of src/pollard.cpp:592-594 needs. -/
def Safe (heap : List (INode H)) (m : PosMap H) (n : ℕ) (A : Addr) (c : ℕ → H) : Prop :=
  ∀ x p, A 0 x = some p → rtOf n 0 x = true ∨ (nz heap (some p) 0).isSome ∨ (PosMap.find m (c x)).isSome

/-- A cached leaf is a root or it or its sibling is remembered. -/
theorem Sparse.leaf {heap : List (INode H)} {n : ℕ} {A : Addr} (h : Sparse heap n A) {x p : ℕ} (hp : A 0 x = some p) (hx : x < n) :
    rtOf n 0 x = true ∨ (nz heap (some p) 0).isSome ∨ Flag heap (rtOf n) A x := by
  cases hr : rtOf n 0 x with
  | true => exact .inl rfl
  | false =>
    right
    have hx0 : x < n / 2 ^ 0 := by simpa using hx
    have hup : x / 2 < n / 2 ^ (0 + 1) := by
      by_contra hc
      rw [(rtOf_iff hx0).2 hc] at hr
      simp at hr
    have hk : kidc heap (rtOf n) A (0 + 1) (x / 2) = true := by
      simp only [kidc, Bool.or_eq_true]
      rcases Nat.mod_two_eq_zero_or_one x with e | e
      · left
        rw [show 2 * (x / 2) = x by omega, hp]; rfl
      · right
        rw [show 2 * (x / 2) + 1 = x by omega, hp]; rfl
    obtain ⟨c, hc, h1⟩ := h.step hup hk
    by_cases hcx : c = x
    · subst hcx
      exact .inr h1
    · left
      have e : c ^^^ 1 = x := by
        have h2 := xor_one_cases c
        have h3 := sb_div c
        split at h2 <;> omega
      have := kid_holder (A := A) hup hc
      rw [e, hp] at this
      simp only [kidc] at h1
      rw [this] at h1
      exact h1

section
variable {K : Ctx H} {hs0 : List H} {A1 : Addr} {cs : List (ℕ × ℕ)} {heap1 : List (INode H)}

theorem targetCheck_ok {t : VPT H} {ν : ℕ → ℕ → Bool} {m : PosMap H} (B : Base K A1 cs heap1) (W : VW K A1 cs heap1 t ν)
    (hS : Safe K.heap0 m K.n K.A0 (K.c 0)) {k x : ℕ} (hm : (k, x) ∈ cs) : targetCheck K.n m t (cs.idxOf (k, x)) = .ok true := by
  unfold targetCheck
  rw [vecGet_ok (W.node hm)]
  have v3 : (vn K.n K.A0 A1 cs (tauF K.n K.D) ν (k, x)).pos = posOf (St.numRows K.n) k x := rfl
  have v4 : (vn K.n K.A0 A1 cs (tauF K.n K.D) ν (k, x)).node = A1 k x := rfl
  have v6 : (vn K.n K.A0 A1 cs (tauF K.n K.D) ν (k, x)).cached = (K.A0 k x).isSome := rfl
  simp only [ok_bind, v3, v4, v6]
  cases hv : (vn K.n K.A0 A1 cs (tauF K.n K.D) ν (k, x)).target with
  | false => rfl
  | true =>
    simp only [Bool.not_true, Bool.false_eq_true, if_false]
    by_cases hlt : posOf (St.numRows K.n) k x < K.n
    · rw [if_pos hlt]
      obtain rfl := (pos_lt_iff B.ok.sane.n62 (B.inn hm)).1 hlt
      cases t.targets with
      | nil => rfl
      | cons th ths =>
        simp only []
        cases h0 : K.A0 0 x with
        | none => rfl
        | some p =>
          obtain ⟨p', z, hp, hg, hv⟩ := W.get B hm
          obtain rfl : p' = p := by have := B.ext _ _ _ h0; rw [hp] at this; exact Option.some.inj this
          have hc : val t.heap A1 0 x = some (K.c 0 x) := W.cached B (by rw [h0]; rfl)
          have hzc : z.hash = K.c 0 x := by rw [hv] at hc; simpa using hc
          simp only [Option.isSome_some, Bool.not_true, Bool.false_eq_true, if_false]
          rw [hp, deref_ok hg, ok_bind]
          by_cases hne : z.hash ≠ th
          · rw [if_pos hne]; rfl
          rw [if_neg hne]
          rw [rootPosition_eq B.ok.sane.n62 (Nat.zero_le _), ok_bind]
          have hth : K.c 0 x = th := by rw [← hzc]; exact not_not.1 hne
          show Except.ok _ = _
          congr 1
          rw [posOf_zero, posOf_zero]
          rcases hS x p' h0 with h | h | h
          · simp [(rtOf_true.1 h).2]
          · have h2 := W.flg x p' h0 h
            have h3 := (W.shape.leaf x).2
            rw [hp] at h3
            have h4 : nz t.heap (some p') 0 = some 0 := by
              rcases h3 with h3 | h3
              · rw [h3] at h2; simp at h2
              · exact h3
            rw [nz_some hg] at h4
            have h5 : z.n0 = some remember := h4
            simp [h5]
          · rw [hth] at h
            simp [h]
    · rw [if_neg hlt]; rfl

theorem vptRowV_ok {m : PosMap H} (B : Base K A1 cs heap1) (hon : K.hon → hs0 = K.D.map (K.c 0))
    (hS : Safe K.heap0 m K.n K.A0 (K.c 0)) {k : ℕ} :
    ∀ (l : List ℕ) (t : VPT H) (ν : ℕ → ℕ → Bool) (done pl : List ℕ), VI K hs0 A1 cs heap1 t ν k done →
    l.Pairwise (· < ·) → (∀ y ∈ l, y ∈ Vn K.n K.D k) → (∀ d ∈ done, ∀ y ∈ l, d < y) →
    done ++ l.filter (fun x => decide (x ∈ Cn K.n K.D k)) = Cn K.n K.D k → NextOk K.n k pl done → (∀ y ∈ pl, (k + 1, y) ∈ cs) →
    vptRowV K.n m (l.map fun y => cs.idxOf (k, y)) t (pl.map fun y => cs.idxOf (k + 1, y)) =
      vptRow K.n (l.map fun y => cs.idxOf (k, y)) t (pl.map fun y => cs.idxOf (k + 1, y)) := by
  intro l
  induction l with
  | nil => intros; rfl
  | cons x l ih =>
    intro t ν done pl V hs hv hlt hC N hpl
    obtain ⟨hs1, hs2⟩ := List.pairwise_cons.1 hs
    have hv' : ∀ y ∈ l, y ∈ Vn K.n K.D k := fun y hy => hv y (List.mem_cons_of_mem _ hy)
    have hm : (k, x) ∈ cs := (B.mem _ _).2 (hv x (by simp))
    rw [List.map_cons, vptRow, vptRowV, targetCheck_ok B V.toVW hS hm]
    simp only [ok_bind]
    rw [show cassert true = .ok () from rfl, ok_bind]
    by_cases hx : x ∈ Cn K.n K.D k
    · have hd : x ∉ done := by
        intro h
        have := hlt x h x (by simp); omega
      rw [List.filter_cons_of_pos (by simpa using hx)] at hC
      obtain ⟨pl', e1, N', hpl'⟩ := push_ok B N hm hpl (fun d h => hlt d h x (by simp)) ν
      have step : NodeOut K hs0 A1 cs heap1 k (done ++ [x]) (pl'.map fun y => cs.idxOf (k + 1, y))
          (vptNode K.n t (pl.map fun y => cs.idxOf (k + 1, y)) (cs.idxOf (k, x))) := by
        rw [← e1]
        cases k with
        | zero => exact vptNode_leaf B V hC.symm hd hon
        | succ q => exact vptNode_inner B V hx hd
      rcases step with ⟨t', ν', e, V'⟩ | ⟨t', ν', nx, e, h1, W⟩
      · rw [e]
        simp only [ok_bind]
        refine ih t' ν' (done ++ [x]) pl' V' hs2 hv' ?_ (by rw [List.append_assoc]; exact hC) N' hpl'
        intro d hd' y hy
        rcases List.mem_append.1 hd' with h | h
        · exact hlt d h y (List.mem_cons_of_mem _ hy)
        · rw [List.mem_singleton.1 h]; exact hs1 y hy
      · rw [e]
        simp only [ok_bind]
    · rw [List.filter_cons_of_neg (by simpa using hx)] at hC
      have hno : vptNode K.n t (pl.map fun y => cs.idxOf (k + 1, y)) (cs.idxOf (k, x)) =
          .ok (.cont (t, pl.map fun y => cs.idxOf (k + 1, y))) := by
        unfold vptNode
        have v1 : (vn K.n K.A0 A1 cs (tauF K.n K.D) ν (k, x)).target = false := by
          show tauF K.n K.D k x = false
          unfold tauF; simpa using hx
        rw [vecGet_ok (V.toVW.node hm)]
        simp only [ok_bind, v1, Bool.not_false, if_true]
        rfl
      rw [hno]
      simp only [ok_bind]
      exact ih t ν done pl V hs2 hv' (fun d h y hy => hlt d h y (List.mem_cons_of_mem _ hy)) hC N hpl

theorem vptRowsV_ok {m : PosMap H} (B : Base K A1 cs heap1) (hon : K.hon → hs0 = K.D.map (K.c 0))
    (hS : Safe K.heap0 m K.n K.A0 (K.c 0)) :
    ∀ (fuel k : ℕ) (t : VPT H) (ν : ℕ → ℕ → Bool), VI K hs0 A1 cs heap1 t ν (k + 1) [] →
    vptRowsV K.n m fuel t ((Cn K.n K.D (k + 1)).map fun y => cs.idxOf (k + 1, y)) =
      vptRows K.n fuel t ((Cn K.n K.D (k + 1)).map fun y => cs.idxOf (k + 1, y)) := by
  intro fuel
  induction fuel with
  | zero => intro k t ν _; rfl
  | succ fuel ih =>
    intro k t ν V
    rw [vptRows, vptRowsV]
    by_cases hC : ((Cn K.n K.D (k + 1)).map fun y => cs.idxOf (k + 1, y)).isEmpty = true
    · rw [if_pos hC, if_pos hC]
    rw [if_neg hC, if_neg hC]
    have hpre : ∀ y ∈ Cn K.n K.D (k + 1), y ∈ Vn K.n K.D (k + 1) := fun y hy => Cn_sub B.ok.sane hy
    have hall : [] ++ (Cn K.n K.D (k + 1)).filter (fun x => decide (x ∈ Cn K.n K.D (k + 1))) = Cn K.n K.D (k + 1) := by
      rw [List.nil_append]; apply List.filter_eq_self.2; simp
    have e := vptRowV_ok B hon hS (k := k + 1) (Cn K.n K.D (k + 1)) t ν [] [] V (Cn_ok B.ok.sane _).1 hpre
        (by simp) hall ⟨by simp, by simp⟩ (by simp)
    have h := vptRow_ok B hon (k := k + 1) (Cn K.n K.D (k + 1)) t ν [] [] V (Cn_ok B.ok.sane _).1 hpre
        (by simp) hall ⟨by simp, by simp⟩ (by simp)
    rw [List.map_nil] at h e
    rw [e]
    rcases h with ⟨t', ν', e, V'⟩ | ⟨t', ν', nx, e, h1, W⟩
    · rw [e]
      simp only [ok_bind]
      exact ih (k + 1) t' ν' V'.up
    · rw [e]
      simp only [ok_bind]

theorem verifyProofTreeV_ok {m : PosMap H} (B : Base K A1 cs heap1) (hon : K.hon → hs0 = K.D.map (K.c 0))
    (hS : Safe K.heap0 m K.n K.A0 (K.c 0)) {t : VPT H} (V : VI K hs0 A1 cs heap1 t (fun _ _ => false) 0 []) :
    verifyProofTreeV K.n m t ((Vn K.n K.D 0).map fun y => cs.idxOf (0, y)) =
      verifyProofTree K.n t ((Vn K.n K.D 0).map fun y => cs.idxOf (0, y)) := by
  unfold verifyProofTree verifyProofTreeV
  congr 1
  rw [vptRows, vptRowsV]
  by_cases hC : ((Vn K.n K.D 0).map fun y => cs.idxOf (0, y)).isEmpty = true
  · rw [if_pos hC, if_pos hC]
  rw [if_neg hC, if_neg hC]
  have e := vptRowV_ok B hon hS (k := 0) (Vn K.n K.D 0) t _ [] [] V (Vn_sorted B.ok.sane _) (fun y hy => hy)
    (by simp) (by rw [List.nil_append]; exact Vn_comp B.ok.sane 0) ⟨by simp, by simp⟩ (by simp)
  have h := vptRow_ok B hon (k := 0) (Vn K.n K.D 0) t _ [] [] V (Vn_sorted B.ok.sane _) (fun y hy => hy)
    (by simp) (by rw [List.nil_append]; exact Vn_comp B.ok.sane 0) ⟨by simp, by simp⟩ (by simp)
  rw [List.map_nil] at h e
  rw [e]
  rcases h with ⟨t', ν', e, V'⟩ | ⟨t', ν', nx, e, h1, W⟩
  · rw [e]
    simp only [ok_bind]
    exact vptRowsV_ok B hon hS 66 0 t' ν' V'.up
  · rw [e]
    simp only [ok_bind]

end

/-- Children are only initialised below nodes that are not leaves. -/
theorem cptNodeV_eq (n : ℕ) (c : CPT H) (next : List ℕ) (id : ℕ) : cptNodeV n c next id = cptNode n c next id := by
  unfold cptNodeV cptNode
  congr 1
  funext v
  dsimp only
  by_cases hv : v.pos < n
  · simp only [if_pos hv]
    rfl
  · have e : ∀ (heap : List (INode H)) (w : VNode), w.pos = v.pos → initChildrenV n heap id w = initChildren n heap id w := by
      intro heap w hw
      unfold initChildrenV initChildren St.childV St.leftChildV
      have : cassert (decide (w.pos ≥ n)) = .ok () := by
        rw [hw]
        simp [cassert, show n ≤ v.pos by omega]
      simp only [this, ok_bind]
    simp only [if_neg hv, e _ { v with target := true } rfl]
    rfl

theorem cptRowV_eq (n : ℕ) : ∀ (ids : List ℕ) (c : CPT H) (next : List ℕ), cptRowV n ids c next = cptRow n ids c next := by
  intro ids
  induction ids with
  | nil => intros; rfl
  | cons id ids ih =>
    intro c next
    rw [cptRowV, cptRow, cptNodeV_eq]
    congr 1
    funext r
    split
    · rfl
    · exact ih _ _

theorem cptRowsV_eq (n : ℕ) : ∀ (k : ℕ) (c : CPT H) (tree : List ℕ), cptRowsV n k c tree = cptRows n k c tree := by
  intro k
  induction k with
  | zero => intros; rfl
  | succ k ih =>
    intro c tree
    rw [cptRowsV, cptRows]
    congr 1
    funext r
    dsimp only
    rw [cptRowV_eq]
    congr 1
    funext r
    split
    · rfl
    · exact ih _ _

theorem createProofTreeV_eq (s : Pollard H) (proof : BatchProof H) : createProofTreeV s proof = createProofTree s proof := by
  unfold createProofTreeV createProofTree
  simp only [cptRowsV_eq]
  rfl

/-- `Verify` with the checks. -/
theorem verifyV_ok {s : Pollard H} {n : ℕ} {f : ℕ → H} {A : Addr} (h : Inv s n f A) (hn62 : n ≤ 2 ^ 62)
    (hS : Safe s.ext s.posmap n A f) (proof : BatchProof H) (hs : List H) : verifyV s proof hs = verify s proof hs := by
  unfold verify verifyV
  simp only [createProofTreeV_eq]
  by_cases hl : hs.length ≠ proof.targets.length
  · rw [if_pos hl, if_pos hl]
  rw [if_neg hl, if_neg hl]
  obtain ⟨b, e, hb⟩ := checkSanity_ok (H := H) hn62 proof
  rw [h.ph.num, e, ok_bind, ok_bind]
  cases b with
  | false => simp only [Bool.not_false, if_true]
  | true =>
    have hS' := (hb.1 rfl).1
    simp only [Bool.not_true, Bool.false_eq_true, if_false]
    by_cases ht : proof.targets.length = 0
    · rw [if_pos ht, if_pos ht]
    rw [if_neg ht, if_neg ht]
    have hK : (ctxOf s n f A proof hs).Ok := ⟨hS', h.ph.shape, h.ph.hashed, h.out, fun r x => mt_succ f r x⟩
    rcases createProofTree_ok (K := ctxOf s n f A proof hs) (s := s) (proof := proof) hK h.ph.num rfl h.ph.roots rfl rfl (fun hh => hh.2) with
      ⟨e1, hz⟩ | ⟨c, tree, e1, ⟨cs, A1, I, P, etree⟩, hc⟩ | ⟨c, tree, e1, nh, k, dn, cs, A1, I⟩
    · rw [e1]
      simp only [error_bind]
    · rw [e1]
      simp only [ok_bind, if_true]
      have B := base_of hK I P
      have V := vi_of hK I hs
      have e2 : tree = (Vn n proof.sorted 0).map fun y => cs.idxOf (0, y) := etree
      have := verifyProofTreeV_ok (K := ctxOf s n f A proof hs) (m := s.posmap) B (fun hh => by
        have := hh.1
        rw [this]
        rfl) hS V
      have this' : verifyProofTreeV n s.posmap (VPT.mk c.heap c.arena hs) tree = verifyProofTree n (VPT.mk c.heap c.arena hs) tree := by
        rw [e2]; exact this
      rw [this']
    · rw [e1]
      simp only [ok_bind, Bool.false_eq_true, if_false]

/-- The objects of a pollard are determined by its roots and its heap. -/
theorem addr_unique {s : Pollard H} {n : ℕ} {f f' : ℕ → H} {A A' : Addr} (h : Inv s n f A) (h' : Inv s n f' A') (hn : n ≤ 2 ^ 62) :
    A = A' := by
  have key : ∀ k r y, St.numRows n < r + k → y < n / 2 ^ r → A r y = A' r y := by
    intro k
    induction k with
    | zero =>
      intro r y hk hy
      have := (row_le hn hy).1
      omega
    | succ k ih =>
      intro r y hk hy
      cases hr : rtOf n r y with
      | true =>
        obtain ⟨h1, h2⟩ := rtOf_true.1 hr
        have hm : (r, y) ∈ rootCoords n := by
          unfold rootCoords
          rw [List.mem_map]
          refine ⟨r, ?_, by rw [h2]⟩
          rw [mem_treeRows]
          have := (row_le hn hy).1
          have := numRows_le_62 hn
          exact ⟨by omega, h1⟩
        have e : (rootCoords n).map (fun c => A c.1 c.2) = (rootCoords n).map fun c => A' c.1 c.2 := by
          rw [← h.ph.roots.node, h'.ph.roots.node]
        exact List.map_inj_left.1 e _ hm
      | false =>
        have hup : y / 2 < n / 2 ^ (r + 1) := by
          by_contra hc
          rw [(rtOf_iff hy).2 hc] at hr
          simp at hr
        rw [h.ph.shape.kids r y hr, h'.ph.shape.kids r y hr]
        congr 1
        unfold holder
        split
        · exact ih (r + 1) _ (by omega) hup
        · split
          · rfl
          · rename_i h1 h2
            by_cases hi : y / 2 ^^^ 1 < n / 2 ^ (r + 1)
            · exact ih (r + 1) _ (by omega) hi
            · rw [h.out _ _ hi, h'.out _ _ hi]
  funext r y
  by_cases hy : y < n / 2 ^ r
  · exact key (St.numRows n + 1) r y (by omega) hy
  · rw [h.out r y hy, h'.out r y hy]

end Pol
end Utreexo
