import Verif.Proof.WorkCount

/-!
# Exactly counted parent hashes

A pollard that has none of the hashes below its roots computes each node above the targets once.
-/

set_option linter.unusedSectionVars false

namespace Utreexo
open Spec Equiv

variable {H : Type} [DecidableEq H] [HashOps H]

namespace Pol

/-- Nothing is known beforehand. -/
def Quiet (arena : List VNode) : Prop := ∀ v ∈ arena, v.valid = false ∧ (v.cached = true → v.parent = none)

theorem vptNode_quiet (n : ℕ) (t : VPT H) (hq : Quiet t.arena) (next : List ℕ) (id : ℕ) :
    After (vptNode n t next id) fun o => ∀ a, (o = .cont a ∨ o = .fail a) → a.1.arena = t.arena := by
  unfold vptNode
  refine After.bind (Q := fun v => v ∈ t.arena) ?_ (fun v hv => ?_)
  · intro v hv
    unfold vecGet at hv
    split at hv
    · cases hv; rename_i h; exact List.mem_of_getElem? h
    · cases hv
  refine After.ite (After.pure ?_) ?_
  · rintro a (h | h)
    · cases h; rfl
    · cases h
  obtain ⟨q1, q2⟩ := hq v hv
  rw [q1]
  simp only [Bool.false_eq_true, if_false]
  have hm : ∀ b : Bool, (if (v.cached && b) = true then markValid t.arena v.parent else t.arena) = t.arena := by
    intro b
    split
    · rename_i h
      rw [Bool.and_eq_true] at h
      rw [q2 h.1]
      rfl
    · rfl
  have same : ∀ (next : List ℕ) (a : VPT H × List ℕ), (Step.fail (t, next) = .cont a ∨ Step.fail (t, next) = .fail a) → a.1.arena = t.arena := by
    rintro next a (h | h)
    · cases h
    · cases h; rfl
  have same' : ∀ (x : VPT H) (next : List ℕ), x.arena = t.arena → ∀ (a : VPT H × List ℕ), (Step.cont (x, next) = .cont a ∨ Step.cont (x, next) = .fail a) → a.1.arena = t.arena := by
    rintro x next hx a (h | h)
    · cases h; exact hx
    · cases h
  refine After.ite ?_ ?_
  · cases t.targets with
    | nil => exact After.pure (same _)
    | cons th ths =>
      refine After.seq fun x => After.ite (After.pure (same _)) ?_
      split
      · refine After.seq fun h => After.seq fun y => After.seq fun h' => After.pure (same' _ _ (hm _))
      · refine After.seq fun h => After.seq fun y => After.seq fun h' => After.pure (same' _ _ (hm _))
  · by_cases hc : v.cached = true
    · rw [hc]
      simp only [Bool.not_false, Bool.and_self, if_true]
      refine After.seq fun o => ?_
      cases o with
      | none => exact After.pure (same _)
      | some ch =>
        refine After.seq fun x => After.ite (After.pure (same _)) (After.pure (same' _ _ ?_))
        have := hm v.sibCached
        rw [hc] at this
        exact this
    · rw [Bool.not_eq_true] at hc
      rw [hc]
      simp only [Bool.and_false, Bool.false_eq_true, if_false]
      refine After.seq fun o => ?_
      cases o with
      | none => exact After.seq fun _ => After.seq fun _ => After.pure (same' _ _ rfl)
      | some ch =>
        refine After.seq fun x => After.seq fun h => ?_
        exact After.seq fun _ => After.pure (same' _ _ rfl)

theorem vptRow_quiet (n : ℕ) : ∀ (ids : List ℕ) (t : VPT H) (next : List ℕ), Quiet t.arena →
    After (vptRow n ids t next) fun o => ∀ a, (o = .cont a ∨ o = .fail a) → a.1.arena = t.arena := by
  intro ids
  induction ids with
  | nil =>
    intro t next _
    refine After.ok ?_
    rintro a (h | h)
    · cases h; rfl
    · cases h
  | cons id ids ih =>
    intro t next hq
    rw [vptRow]
    refine After.bind (vptNode_quiet n t hq next id) fun o ho => ?_
    cases o with
    | fail x =>
      refine After.pure ?_
      rintro a (h | h)
      · cases h
      · cases h; exact ho x (.inr rfl)
    | cont x =>
      have e := ho x (.inl rfl)
      intro o' h' a ha
      rw [← e]
      exact ih x.1 x.2 (e ▸ hq) o' h' a ha

section
variable {K : Ctx H} {hs0 : List H} {A1 : Addr} {cs : List (ℕ × ℕ)} {heap1 : List (INode H)}

theorem vptNode_exact (B : Base K A1 cs heap1) {t : VPT H} {ν : ℕ → ℕ → Bool} {done : List ℕ} {q : ℕ}
    (V : VI K hs0 A1 cs heap1 t ν (q + 1) done) {x : ℕ} {next : List ℕ} (hx : x ∈ Cn K.n K.D (q + 1)) (hq : Quiet t.arena) :
    Follows (Costs fun k _ => k = 1) (vptNodeC K.n t next (cs.idxOf (q + 1, x))) (vptNode K.n t next (cs.idxOf (q + 1, x))) := by
  have hm : (q + 1, x) ∈ cs := (B.mem _ _).2 (Cn_sub B.ok.sane hx)
  have hin := B.inn hm
  have hlt : ¬ posOf (St.numRows K.n) (q + 1) x < K.n := by
    rw [pos_lt_iff B.ok.sane.n62 hin]; omega
  obtain ⟨a, b, ha, hb, hch⟩ := childrenHash_ok V.toVW B hx
  have hg := V.toVW.node hm
  obtain ⟨q1, -⟩ := hq _ (List.mem_of_getElem? hg)
  have hchC : childrenHashC t.heap (vn K.n K.A0 A1 cs (tauF K.n K.D) ν (q + 1, x)) = .ok (some (HashOps.ph a b), 1) := by
    revert hch
    unfold childrenHashC childrenHash
    intro hch
    obtain ⟨y, h1, h2⟩ := bind_eq_ok.1 hch
    rw [h1, ok_bind]
    clear hch h1
    cases e0 : y.n0 with
    | none => rw [e0] at h2; cases h2
    | some l =>
      cases e1 : y.n1 with
      | none => rw [e0, e1] at h2; cases h2
      | some r =>
        rw [e0, e1] at h2
        dsimp only at h2 ⊢
        obtain ⟨lx, h3, h4⟩ := bind_eq_ok.1 h2
        obtain ⟨rx, h5, h6⟩ := bind_eq_ok.1 h4
        rw [h3, ok_bind, h5, ok_bind]
        have h7 := Option.some.inj (Except.ok.inj h6)
        rw [h7]
        rfl
  have v1 : (vn K.n K.A0 A1 cs (tauF K.n K.D) ν (q + 1, x)).target = true := by
    show tauF K.n K.D (q + 1) x = true
    unfold tauF; simpa using hx
  unfold vptNodeC vptNode
  rw [vecGet_ok hg, ok_bind, ok_bind, v1, q1]
  simp only [Bool.not_true, Bool.false_eq_true, if_false, Bool.not_false, Bool.true_and, Bool.false_and]
  rw [if_neg (show ¬ (vn K.n K.A0 A1 cs (tauF K.n K.D) ν (q + 1, x)).pos < K.n from hlt),
    if_neg (show ¬ (vn K.n K.A0 A1 cs (tauF K.n K.D) ν (q + 1, x)).pos < K.n from hlt), hch, hchC]
  simp only [ok_bind]
  refine Follows.ite (fun _ => ?_) fun _ => ?_
  · refine Follows.seq fun y => Follows.ite (fun _ => .ok ⟨rfl, rfl⟩) fun _ => .ok ⟨rfl, rfl⟩
  · refine Follows.seq fun y => Follows.seq fun heap => ?_
    refine Follows.seq (x := cassert _) fun _ => .ok ⟨rfl, rfl⟩

theorem vptRow_exact (B : Base K A1 cs heap1) {q : ℕ} : ∀ (l : List ℕ) (t : VPT H) (ν : ℕ → ℕ → Bool) (done next : List ℕ),
    VI K hs0 A1 cs heap1 t ν (q + 1) done → (done ++ l).Nodup → (∀ y ∈ l, y ∈ Cn K.n K.D (q + 1)) → Quiet t.arena →
    Follows (Costs fun k o => ∀ a, o = .cont a → k = l.length)
      (vptRowC K.n (l.map fun y => cs.idxOf (q + 1, y)) t next) (vptRow K.n (l.map fun y => cs.idxOf (q + 1, y)) t next) := by
  intro l
  induction l with
  | nil => intro t ν done next _ _ _ _; exact .ok ⟨rfl, fun _ _ => rfl⟩
  | cons x l ih =>
    intro t ν done next V hnd hl hq
    rw [List.map_cons, vptRowC, vptRow]
    have hx := hl x (by simp)
    have hd : x ∉ done := fun h => (List.nodup_append.1 hnd).2.2 x h x (by simp) rfl
    have h1 := vptNode_exact B V (next := next) hx hq
    have h2 := vptNode_inner B V (next := next) hx hd
    have h3 := vptNode_quiet K.n t hq next (cs.idxOf (q + 1, x))
    rcases h2 with ⟨t', ν', e, V'⟩ | ⟨t', ν', nx, e, -, -⟩
    · rw [e] at h1 h3 ⊢
      obtain ⟨⟨o, c⟩, e', rfl, hc1⟩ := h1.left rfl
      simp only at hc1
      subst hc1
      rw [e', ok_bind, ok_bind]
      dsimp only
      have ea := h3 _ rfl _ (.inl rfl)
      have := ih t' ν' (done ++ [x]) (pushParent next (vn K.n K.A0 A1 cs (tauF K.n K.D) ν (q + 1, x)).parent) V'
        (by rw [List.append_assoc]; exact hnd) (fun y hy => hl y (List.mem_cons_of_mem _ hy)) (by
          have ea' : t'.arena = t.arena := ea
          rw [ea']; exact hq)
      revert this
      generalize vptRowC K.n _ t' _ = a
      generalize vptRow K.n _ t' _ = b
      intro h
      cases h with
      | error e => exact .error e
      | ok h =>
        refine .ok ⟨h.1, fun a ha => ?_⟩
        have := h.2 a ha
        simp only [List.length_cons]
        omega
    · rw [e] at h1 ⊢
      obtain ⟨⟨o, c⟩, e', rfl, hc1⟩ := h1.left rfl
      rw [e', ok_bind, ok_bind]
      exact .ok ⟨rfl, fun a ha => by cases ha⟩

theorem computed_succ (n : ℕ) (D : List ℕ) (k m : ℕ) : computed n D k (m + 1) = (Cn n D k).length + computed n D (k + 1) m := by
  unfold computed
  rw [List.range'_succ, List.map_cons, List.sum_cons]

theorem computed_nil {n : ℕ} {D : List ℕ} (hS : Sane n D) (m : ℕ) : ∀ k, Cn n D k = [] → computed n D k m = 0 := by
  induction m with
  | zero => intro k _; rfl
  | succ m ih =>
    intro k h
    rw [computed_succ, h, ih (k + 1)]
    · rfl
    · rw [List.eq_nil_iff_forall_not_mem]
      intro x hx
      obtain ⟨-, y, hy, -⟩ := (mem_Cn_succ hS).1 hx
      rw [h] at hy
      cases hy

theorem vptRows_exact (B : Base K A1 cs heap1) (hon : K.hon → hs0 = K.D.map (K.c 0)) :
    ∀ (fuel k : ℕ) (t : VPT H) (ν : ℕ → ℕ → Bool), VI K hs0 A1 cs heap1 t ν (k + 1) [] → Quiet t.arena →
    Follows (Costs fun c o => o.1 = true → c = computed K.n K.D (k + 1) fuel)
      (vptRowsC K.n fuel t ((Cn K.n K.D (k + 1)).map fun y => cs.idxOf (k + 1, y)))
      (vptRows K.n fuel t ((Cn K.n K.D (k + 1)).map fun y => cs.idxOf (k + 1, y))) := by
  intro fuel
  induction fuel with
  | zero => intro k t ν _ _; exact .error _
  | succ fuel ih =>
    intro k t ν V hq
    rw [vptRowsC, vptRows]
    refine Follows.ite (fun h => .ok ⟨rfl, fun _ => ?_⟩) fun _ => ?_
    · rw [computed_nil B.ok.sane]
      simpa using h
    have h := vptRow_ok B hon (k := k + 1) (Cn K.n K.D (k + 1)) t ν [] [] V (Cn_ok B.ok.sane _).1 (fun y hy => Cn_sub B.ok.sane hy)
      (by simp) (by rw [List.nil_append]; apply List.filter_eq_self.2; simp) ⟨by simp, by simp⟩ (by simp)
    rw [List.map_nil] at h
    have hw := vptRow_exact B (Cn K.n K.D (k + 1)) t ν [] [] V
      (by rw [List.nil_append]; exact (Cn_ok B.ok.sane _).1.imp fun h => Nat.ne_of_lt h) (fun y hy => hy) hq
    have hq' := vptRow_quiet K.n ((Cn K.n K.D (k + 1)).map fun y => cs.idxOf (k + 1, y)) t [] hq
    rcases h with ⟨t', ν', e, V'⟩ | ⟨t', ν', nx, e, h1, W⟩
    · rw [e] at hw hq' ⊢
      obtain ⟨⟨o, c⟩, e', rfl, hc1⟩ := hw.left rfl
      rw [e', ok_bind, ok_bind]
      dsimp only
      have ea : t'.arena = t.arena := hq' _ rfl _ (.inl rfl)
      have := ih (k + 1) t' ν' V'.up (ea ▸ hq)
      revert this
      generalize vptRowsC K.n fuel t' _ = a
      generalize vptRows K.n fuel t' _ = b
      intro h
      cases h with
      | error e => exact .error e
      | ok h =>
        refine .ok ⟨h.1, fun ht => ?_⟩
        have h1 := hc1 _ rfl
        have h2 := h.2 ht
        simp only at h1
        rw [computed_succ, h1, h2]
    · rw [e] at hw ⊢
      obtain ⟨⟨o, c⟩, e', rfl, hc1⟩ := hw.left rfl
      rw [e', ok_bind, ok_bind]
      exact .ok ⟨rfl, fun ht => by cases ht⟩

theorem verifyProofTree_exact (B : Base K A1 cs heap1) (hon : K.hon → hs0 = K.D.map (K.c 0)) {t : VPT H}
    (V : VI K hs0 A1 cs heap1 t (fun _ _ => false) 0 []) (hl : ∀ r x, rtOf K.n r x = false → K.A0 r x = none) :
    Follows (Costs fun c o => o.1 = true → c = computed K.n K.D 1 66)
      (verifyProofTreeC K.n t ((Vn K.n K.D 0).map fun y => cs.idxOf (0, y)))
      (verifyProofTree K.n t ((Vn K.n K.D 0).map fun y => cs.idxOf (0, y))) := by
  have hq : Quiet t.arena := by
    intro v hv
    rw [V.toVW.arena] at hv
    obtain ⟨⟨r, x⟩, he, rfl⟩ := List.mem_map.1 hv
    refine ⟨rfl, fun hc => ?_⟩
    have hc' : (K.A0 r x).isSome = true := hc
    show (if rtOf K.n r x = true then none else _) = none
    rw [if_pos]
    by_contra h
    rw [Bool.not_eq_true] at h
    rw [hl r x h] at hc'
    cases hc'
  unfold verifyProofTreeC verifyProofTree
  refine Follows.bind (R := Costs fun c o => o.1 = true → c = computed K.n K.D 1 66) ?_ ?_
  · rw [vptRowsC, vptRows]
    refine Follows.ite (fun h => .ok ⟨rfl, fun _ => ?_⟩) fun _ => ?_
    · have : Cn K.n K.D 0 = [] := by
        rw [List.eq_nil_iff_forall_not_mem]
        intro x hx
        have hx' := Cn_sub B.ok.sane hx
        have h0 : Vn K.n K.D 0 = [] := by simpa using h
        rw [h0] at hx'
        cases hx'
      have h2 := computed_nil B.ok.sane 67 0 this
      rw [computed_succ, Nat.zero_add] at h2
      show 0 = _
      omega
    have h := vptRow_ok B hon (k := 0) (Vn K.n K.D 0) t _ [] [] V (Vn_sorted B.ok.sane _) (fun y hy => hy)
      (by simp) (by rw [List.nil_append]; exact Vn_comp B.ok.sane 0) ⟨by simp, by simp⟩ (by simp)
    rw [List.map_nil] at h
    have hq' := vptRow_quiet K.n ((Vn K.n K.D 0).map fun y => cs.idxOf (0, y)) t [] hq
    have hw := vptRow_leaves K.n ((Vn K.n K.D 0).map fun y => cs.idxOf (0, y)) t [] (by
      intro id hid
      obtain ⟨y, hy, rfl⟩ := List.mem_map.1 hid
      have hm : (0, y) ∈ cs := (B.mem _ _).2 hy
      refine ⟨_, by rw [List.getElem?_map, V.toVW.node hm]; rfl, ?_⟩
      show posOf _ _ _ < _
      rw [pos_lt_iff B.ok.sane.n62 (Vn_in B.ok.sane hy)])
    rcases h with ⟨t', ν', e, V'⟩ | ⟨t', ν', nx, e, h1, W⟩
    · rw [e] at hw hq' ⊢
      obtain ⟨⟨o, c⟩, e', rfl, hc1⟩ := hw.left rfl
      rw [e', ok_bind, ok_bind]
      dsimp only
      have ea : t'.arena = t.arena := hq' _ rfl _ (.inl rfl)
      have := vptRows_exact B hon 66 0 t' ν' V'.up (ea ▸ hq)
      revert this
      generalize vptRowsC K.n 66 t' _ = a
      generalize vptRows K.n 66 t' _ = b
      intro h
      cases h with
      | error e => exact .error e
      | ok h =>
        refine .ok ⟨h.1, fun ht => ?_⟩
        have h2 := h.2 ht
        simp only at hc1 ⊢
        rw [hc1, Nat.zero_add]
        exact h2
    · rw [e] at hw ⊢
      obtain ⟨⟨o, c⟩, e', rfl, hc1⟩ := hw.left rfl
      rw [e', ok_bind, ok_bind]
      exact .ok ⟨rfl, fun ht => by cases ht⟩
  · rintro ⟨⟨b, t'⟩, c⟩ x ⟨rfl, hc⟩
    refine .ok ⟨rfl, fun ht => hc ?_⟩
    simp only [Bool.and_eq_true] at ht
    exact ht.1

end

theorem verify_exact {s : Pollard H} {n : ℕ} {f : ℕ → H} {A : Addr} (h : Inv s n f A) (hn62 : n ≤ 2 ^ 62)
    (hl : ∀ r x, rtOf n r x = false → A r x = none) (proof : BatchProof H) (hs : List H) (ht : proof.targets ≠ []) :
    Follows (Costs fun c o => o.1 = true → c = computed n proof.sorted 1 66 ∧ Sane n proof.sorted)
      (verifyC s proof hs) (verify s proof hs) := by
  unfold verify verifyC
  refine Follows.ite (fun _ => .ok ⟨rfl, fun h => by cases h⟩) fun hl' => ?_
  obtain ⟨b, e, hb⟩ := checkSanity_ok (H := H) hn62 proof
  rw [h.ph.num, e, ok_bind, ok_bind]
  cases b with
  | false => exact .ok ⟨rfl, fun h => by cases h⟩
  | true =>
    have hS' := (hb.1 rfl).1
    simp only [Bool.not_true, Bool.false_eq_true, if_false]
    rw [if_neg (fun h => ht (List.eq_nil_of_length_eq_zero h)), if_neg (fun h => ht (List.eq_nil_of_length_eq_zero h))]
    have hK : (ctxOf s n f A proof hs).Ok := ⟨hS', h.ph.shape, h.ph.hashed, h.out, fun r x => mt_succ f r x⟩
    rcases createProofTree_ok (K := ctxOf s n f A proof hs) (s := s) (proof := proof) hK h.ph.num rfl h.ph.roots rfl rfl (fun hh => hh.2) with
      ⟨e1, hz⟩ | ⟨c, tree, e1, ⟨cs, A1, I, P, etree⟩, hc⟩ | ⟨c, tree, e1, nh, k, dn, cs, A1, I⟩
    · rw [e1]
      exact .error _
    · rw [e1]
      simp only [ok_bind, if_true]
      have B := base_of hK I P
      have V := vi_of hK I hs
      have e2 : tree = (Vn n proof.sorted 0).map fun y => cs.idxOf (0, y) := etree
      rw [e2]
      refine Follows.bind (R := Costs fun c o => o.1 = true → c = computed n proof.sorted 1 66) ?_ ?_
      · exact verifyProofTree_exact (K := ctxOf s n f A proof hs) B (fun hh => by
          have := hh.1
          rw [this]
          rfl) V hl
      · rintro ⟨⟨ok, t⟩, k⟩ b ⟨rfl, hk⟩
        refine Follows.ite (fun _ => ?_) fun ho => ?_
        · refine Follows.seq fun heap => ?_
          exact .ok ⟨rfl, fun h => by cases h⟩
        · refine Follows.seq fun m => ?_
          exact .ok ⟨rfl, fun _ => ⟨hk (by simpa using ho), hS'⟩⟩
    · rw [e1]
      simp only [ok_bind, pure_bind, Bool.false_eq_true, if_false, Bool.not_false, if_true]
      refine Follows.seq fun heap => ?_
      exact .ok ⟨rfl, fun h => by cases h⟩

end Pol
end Utreexo
