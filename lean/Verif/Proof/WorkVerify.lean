import Verif.Proof.Work
import Verif.Proof.PolVerify
import Verif.Proof.PolFire

/-! # Counted parent hashes of a verification -/

set_option linter.unusedSectionVars false

namespace Utreexo
open Spec Equiv

variable {H : Type} [DecidableEq H] [HashOps H]

namespace Pol

/-- A result with a count that satisfies `P`. -/
def Costs {α : Type} (P : ℕ → α → Prop) (a : α × ℕ) (b : α) : Prop := a.1 = b ∧ P a.2 b

theorem childrenHash_work (heap : List (INode H)) (v : VNode) :
    Follows (Costs fun k _ => k ≤ 1) (childrenHashC heap v) (childrenHash heap v) := by
  unfold childrenHashC childrenHash
  refine Follows.seq fun x => ?_
  cases x.n0 with
  | none => exact .ok ⟨rfl, Nat.zero_le _⟩
  | some l =>
    cases x.n1 with
    | none => exact .ok ⟨rfl, Nat.zero_le _⟩
    | some r =>
      refine Follows.seq fun lx => Follows.seq fun rx => ?_
      exact .ok ⟨rfl, le_rfl⟩

/-- One node: at most one hash, and none for a leaf. -/
theorem vptNode_work (n : ℕ) (t : VPT H) (next : List ℕ) (id : ℕ) :
    Follows (Costs fun k _ => k ≤ 1 ∧ ∀ v, t.arena[id]? = some v → v.pos < n → k = 0) (vptNodeC n t next id) (vptNode n t next id) := by
  unfold vptNodeC vptNode
  refine Follows.seqAfter (Q := fun v => t.arena[id]? = some v) (fun v hv => ?_) fun v hv => ?_
  · unfold vecGet at hv
    split at hv
    · cases hv; assumption
    · cases hv
  refine Follows.ite (fun _ => .ok ⟨rfl, Nat.zero_le _, fun _ _ _ => rfl⟩) fun _ => ?_
  dsimp only
  generalize (if v.valid = true then { t with arena := markValid t.arena v.parent } else t) = t1
  refine Follows.ite (fun _ => ?_) fun hp => ?_
  · cases t1.targets with
    | nil => exact .ok ⟨rfl, Nat.zero_le _, fun _ _ _ => rfl⟩
    | cons th ths =>
      refine Follows.seq fun x => Follows.ite (fun _ => .ok ⟨rfl, Nat.zero_le _, fun _ _ _ => rfl⟩) fun _ => ?_
      have fin : ∀ heap : List (INode H), Follows (Costs fun k _ => k ≤ 1 ∧ ∀ v, t.arena[id]? = some v → v.pos < n → k = 0)
          (do
            let y ← deref heap v.sib
            let heap ← store heap v.sib { y with n0 := some remember }
            return (Step.cont (VPT.mk heap (if (v.cached && v.sibCached) = true then markValid t1.arena v.parent else t1.arena) ths,
              pushParent next v.parent), 0))
          (do
            let y ← deref heap v.sib
            let heap ← store heap v.sib { y with n0 := some remember }
            return Step.cont (VPT.mk heap (if (v.cached && v.sibCached) = true then markValid t1.arena v.parent else t1.arena) ths,
              pushParent next v.parent)) := by
        intro heap
        refine Follows.seq fun y => Follows.seq fun heap' => ?_
        exact .ok ⟨rfl, Nat.zero_le _, fun _ _ _ => rfl⟩
      split
      · exact fin t1.heap
      · exact Follows.seq fun heap => fin heap
  · have no : ∀ k : ℕ, ∀ v, t.arena[id]? = some v → v.pos < n → k = 0 := by
      intro k w hw hlt
      rw [hv] at hw
      cases hw
      exact absurd hlt hp
    refine Follows.ite (fun _ => ?_) fun _ => Follows.ite (fun _ => .ok ⟨rfl, Nat.zero_le _, fun _ _ _ => rfl⟩) fun _ => ?_
    · refine Follows.bind (childrenHash_work t1.heap v) ?_
      rintro ⟨h, k⟩ h' ⟨rfl, hk⟩
      cases h with
      | none => exact .ok ⟨rfl, hk, no k⟩
      | some ch =>
        refine Follows.seq fun x => Follows.ite (fun _ => .ok ⟨rfl, hk, no k⟩) fun _ => .ok ⟨rfl, hk, no k⟩
    · refine Follows.bind (childrenHash_work t1.heap v) ?_
      rintro ⟨h, k⟩ h' ⟨rfl, hk⟩
      cases h with
      | none =>
        refine Follows.seq (x := cassert v.parent.isSome) fun _ => ?_
        exact .ok ⟨rfl, hk, no k⟩
      | some ch =>
        refine Follows.seq fun x => Follows.seq fun heap => ?_
        refine Follows.seq (x := cassert v.parent.isSome) fun _ => ?_
        exact .ok ⟨rfl, hk, no k⟩

theorem vptRow_work (n : ℕ) : ∀ (ids : List ℕ) (t : VPT H) (next : List ℕ),
    Follows (Costs fun k _ => k ≤ ids.length) (vptRowC n ids t next) (vptRow n ids t next) := by
  intro ids
  induction ids with
  | nil => intro t next; exact .ok ⟨rfl, le_rfl⟩
  | cons id ids ih =>
    intro t next
    rw [vptRowC, vptRow]
    refine Follows.bind (vptNode_work n t next id) ?_
    rintro ⟨o, k⟩ o' ⟨rfl, hk, -⟩
    simp only at hk
    cases o with
    | fail x => exact .ok ⟨rfl, by simp only [List.length_cons]; omega⟩
    | cont x =>
      refine Follows.mono (R := Costs fun k' _ => k' ≤ k + ids.length) ?_ ?_
      · have := ih x.1 x.2
        revert this
        dsimp only
        generalize vptRowC n ids x.1 x.2 = a
        generalize vptRow n ids x.1 x.2 = b
        intro h
        cases h with
        | error e => exact .error e
        | ok h => exact .ok ⟨h.1, by have := h.2; simp only; omega⟩
      · rintro a b ⟨h1, h2⟩
        exact ⟨h1, by simp only [List.length_cons]; omega⟩

/-- Nothing but the marks changes in the arena. -/
theorem markValid_map {α : Type} (g : VNode → α) (hg : ∀ v, g { v with valid := true } = g v) (arena : List VNode) (p : Option ℕ) : (markValid arena p).map g = arena.map g := by
  unfold markValid
  cases p with
  | none => rfl
  | some i =>
    dsimp only
    split
    · rfl
    · rename_i v hv
      rw [List.map_set]
      apply List.ext_getElem? 
      intro j
      rw [List.getElem?_set]
      split
      · rename_i h
        subst h
        have hlt := (List.getElem?_eq_some_iff.1 hv).1
        rw [if_pos (by simpa using hlt), List.getElem?_map, hv, hg]
        rfl
      · rfl

theorem vptNode_map {α : Type} (g : VNode → α) (hg : ∀ v, g { v with valid := true } = g v) (n : ℕ) (t : VPT H) (next : List ℕ) (id : ℕ) :
    After (vptNode n t next id) fun o => ∀ a, (o = .cont a ∨ o = .fail a) → a.1.arena.map g = t.arena.map g := by
  unfold vptNode
  refine After.seq fun v => After.ite (After.pure ?_) ?_
  · rintro a (h | h)
    · cases h; rfl
    · cases h
  dsimp only
  have h0 : (if v.valid = true then { t with arena := markValid t.arena v.parent } else t : VPT H).arena.map g = t.arena.map g := by
    split
    · exact markValid_map g hg _ _
    · rfl
  generalize (if v.valid = true then { t with arena := markValid t.arena v.parent } else t : VPT H) = t1 at h0 ⊢
  have hm : ∀ b : Bool, (if b = true then markValid t1.arena v.parent else t1.arena).map g = t.arena.map g := by
    intro b
    split
    · rw [markValid_map g hg, h0]
    · exact h0
  have same : ∀ (next : List ℕ) (a : VPT H × List ℕ), (Step.fail (t1, next) = .cont a ∨ Step.fail (t1, next) = .fail a) → a.1.arena.map g = t.arena.map g := by
    rintro next a (h | h)
    · cases h
    · cases h; exact h0
  have same' : ∀ (x : VPT H) (next : List ℕ), x.arena.map g = t.arena.map g → ∀ (a : VPT H × List ℕ), (Step.cont (x, next) = .cont a ∨ Step.cont (x, next) = .fail a) → a.1.arena.map g = t.arena.map g := by
    rintro x next hx a (h | h)
    · cases h; exact hx
    · cases h
  refine After.ite ?_ (After.ite ?_ (After.ite (After.pure (same' _ _ h0)) ?_))
  · cases t1.targets with
    | nil => exact After.pure (same _)
    | cons th ths =>
      refine After.seq fun x => After.ite (After.pure (same _)) ?_
      split
      · refine After.seq fun h => After.seq fun y => After.seq fun h' => After.pure (same' _ _ (hm _))
      · refine After.seq fun h => After.seq fun y => After.seq fun h' => After.pure (same' _ _ (hm _))
  · refine After.seq fun o => ?_
    cases o with
    | none => exact After.pure (same _)
    | some ch => exact After.seq fun x => After.ite (After.pure (same _)) (After.pure (same' _ _ (hm _)))
  · refine After.seq fun o => ?_
    cases o with
    | none => exact After.seq fun _ => After.seq fun _ => After.pure (same' _ _ h0)
    | some ch =>
      refine After.seq fun x => After.seq fun h => ?_
      exact After.seq fun _ => After.pure (same' _ _ h0)

theorem markValid_pos (arena : List VNode) (p : Option ℕ) : (markValid arena p).map VNode.pos = arena.map VNode.pos :=
  markValid_map VNode.pos (fun _ => rfl) arena p

theorem vptNode_pos (n : ℕ) (t : VPT H) (next : List ℕ) (id : ℕ) :
    After (vptNode n t next id) fun o => ∀ a, (o = .cont a ∨ o = .fail a) → a.1.arena.map VNode.pos = t.arena.map VNode.pos :=
  vptNode_map VNode.pos (fun _ => rfl) n t next id

/-- A row of leaves: no hash. -/
theorem vptRow_leaves (n : ℕ) : ∀ (ids : List ℕ) (t : VPT H) (next : List ℕ),
    (∀ id ∈ ids, ∃ p, (t.arena.map VNode.pos)[id]? = some p ∧ p < n) →
    Follows (Costs fun k _ => k = 0) (vptRowC n ids t next) (vptRow n ids t next) := by
  intro ids
  induction ids with
  | nil => intro t next _; exact .ok ⟨rfl, rfl⟩
  | cons id ids ih =>
    intro t next hl
    rw [vptRowC, vptRow]
    have hp := vptNode_pos n t next id
    have hw := vptNode_work n t next id
    revert hp hw
    generalize vptNodeC n t next id = x
    generalize vptNode n t next id = y
    intro hp hw
    cases hw with
    | error e => exact .error e
    | @ok a b hab =>
      obtain ⟨o, k⟩ := a
      obtain ⟨rfl, -, hk⟩ := hab
      simp only at hk hp
      obtain ⟨p, h1, h2⟩ := hl id (by simp)
      rw [List.getElem?_map] at h1
      obtain ⟨v, hv, rfl⟩ := Option.map_eq_some_iff.1 h1
      obtain rfl := hk v hv h2
      rw [ok_bind, ok_bind]
      cases o with
      | fail x => exact .ok ⟨rfl, rfl⟩
      | cont x =>
        have e := hp _ rfl x (.inl rfl)
        have := ih x.1 x.2 (by rw [e]; exact fun j hj => hl j (List.mem_cons_of_mem _ hj))
        revert this
        dsimp only
        generalize vptRowC n ids x.1 x.2 = a
        generalize vptRow n ids x.1 x.2 = b
        intro h
        cases h with
        | error e => exact .error e
        | ok h => exact .ok ⟨h.1, by have := h.2; simp only; omega⟩

/-- Number of computed nodes in `m` rows from row `k` on. -/
def computed (n : ℕ) (D : List ℕ) (k m : ℕ) : ℕ := ((List.range' k m).map fun j => (Cn n D j).length).sum

section
variable {K : Ctx H} {hs0 : List H} {A1 : Addr} {cs : List (ℕ × ℕ)} {heap1 : List (INode H)}

theorem vptRows_work (B : Base K A1 cs heap1) (hon : K.hon → hs0 = K.D.map (K.c 0)) :
    ∀ (fuel k : ℕ) (t : VPT H) (ν : ℕ → ℕ → Bool), VI K hs0 A1 cs heap1 t ν (k + 1) [] →
    Follows (Costs fun c _ => c ≤ computed K.n K.D (k + 1) fuel)
      (vptRowsC K.n fuel t ((Cn K.n K.D (k + 1)).map fun y => cs.idxOf (k + 1, y)))
      (vptRows K.n fuel t ((Cn K.n K.D (k + 1)).map fun y => cs.idxOf (k + 1, y))) := by
  intro fuel
  induction fuel with
  | zero => intro k t ν _; exact .error _
  | succ fuel ih =>
    intro k t ν V
    rw [vptRowsC, vptRows]
    refine Follows.ite (fun _ => .ok ⟨rfl, Nat.zero_le _⟩) fun _ => ?_
    have h := vptRow_ok B hon (k := k + 1) (Cn K.n K.D (k + 1)) t ν [] [] V (Cn_ok B.ok.sane _).1 (fun y hy => Cn_sub B.ok.sane hy)
      (by simp) (by rw [List.nil_append]; apply List.filter_eq_self.2; simp) ⟨by simp, by simp⟩ (by simp)
    rw [List.map_nil] at h
    have hw := vptRow_work K.n ((Cn K.n K.D (k + 1)).map fun y => cs.idxOf (k + 1, y)) t []
    rw [List.length_map] at hw
    have hc : computed K.n K.D (k + 1) (fuel + 1) = (Cn K.n K.D (k + 1)).length + computed K.n K.D (k + 1 + 1) fuel := by
      unfold computed
      rw [List.range'_succ, List.map_cons, List.sum_cons]
    rcases h with ⟨t', ν', e, V'⟩ | ⟨t', ν', nx, e, h1, W⟩
    · rw [e] at hw ⊢
      obtain ⟨⟨o, c⟩, e', rfl, hc1⟩ := hw.left rfl
      rw [e', ok_bind, ok_bind]
      dsimp only
      have := ih (k + 1) t' ν' V'.up
      revert this
      generalize vptRowsC K.n fuel t' _ = a
      generalize vptRows K.n fuel t' _ = b
      intro h
      cases h with
      | error e => exact .error e
      | ok h => exact .ok ⟨h.1, by have := h.2; simp only at hc1 ⊢; omega⟩
    · rw [e] at hw ⊢
      obtain ⟨⟨o, c⟩, e', rfl, hc1⟩ := hw.left rfl
      rw [e', ok_bind, ok_bind]
      exact .ok ⟨rfl, by simp only at hc1 ⊢; omega⟩

theorem verifyProofTree_work (B : Base K A1 cs heap1) (hon : K.hon → hs0 = K.D.map (K.c 0)) {t : VPT H}
    (V : VI K hs0 A1 cs heap1 t (fun _ _ => false) 0 []) :
    Follows (Costs fun c _ => c ≤ computed K.n K.D 1 66)
      (verifyProofTreeC K.n t ((Vn K.n K.D 0).map fun y => cs.idxOf (0, y)))
      (verifyProofTree K.n t ((Vn K.n K.D 0).map fun y => cs.idxOf (0, y))) := by
  unfold verifyProofTreeC verifyProofTree
  refine Follows.bind (R := Costs fun c _ => c ≤ computed K.n K.D 1 66) ?_ ?_
  · rw [vptRowsC, vptRows]
    refine Follows.ite (fun _ => .ok ⟨rfl, Nat.zero_le _⟩) fun _ => ?_
    have h := vptRow_ok B hon (k := 0) (Vn K.n K.D 0) t _ [] [] V (Vn_sorted B.ok.sane _) (fun y hy => hy)
      (by simp) (by rw [List.nil_append]; exact Vn_comp B.ok.sane 0) ⟨by simp, by simp⟩ (by simp)
    rw [List.map_nil] at h
    have hw := vptRow_leaves K.n ((Vn K.n K.D 0).map fun y => cs.idxOf (0, y)) t [] (by
      intro id hid
      obtain ⟨y, hy, rfl⟩ := List.mem_map.1 hid
      have hm : (0, y) ∈ cs := (B.mem _ _).2 hy
      refine ⟨_, by rw [List.getElem?_map, V.toVW.node hm]; rfl, ?_⟩
      show posOf _ _ _ < _
      rw [pos_lt_iff B.ok.sane.n62 (Vn_in B.ok.sane hy)])
    rcases h with ⟨t', ν', e, V'⟩ | ⟨t', ν', nx, e, h1, W⟩
    · rw [e] at hw ⊢
      obtain ⟨⟨o, c⟩, e', rfl, hc1⟩ := hw.left rfl
      rw [e', ok_bind, ok_bind]
      dsimp only
      have := vptRows_work B hon 66 0 t' ν' V'.up
      revert this
      generalize vptRowsC K.n 66 t' _ = a
      generalize vptRows K.n 66 t' _ = b
      intro h
      cases h with
      | error e => exact .error e
      | ok h => exact .ok ⟨h.1, by have := h.2; simp only at hc1 ⊢; rw [hc1, Nat.zero_add]; exact this⟩
    · rw [e] at hw ⊢
      obtain ⟨⟨o, c⟩, e', rfl, hc1⟩ := hw.left rfl
      rw [e', ok_bind, ok_bind]
      exact .ok ⟨rfl, by simp only at hc1 ⊢; omega⟩
  · rintro ⟨⟨b, t'⟩, c⟩ x ⟨rfl, hc⟩
    exact .ok ⟨rfl, hc⟩

end

theorem verify_work {s : Pollard H} {n : ℕ} {f : ℕ → H} {A : Addr} (h : Inv s n f A) (hn62 : n ≤ 2 ^ 62)
    (proof : BatchProof H) (hs : List H) :
    Follows (Costs fun c _ => c ≤ computed n proof.sorted 1 66 ∧ (c ≠ 0 → Sane n proof.sorted ∧ hs.length = proof.targets.length))
      (verifyC s proof hs) (verify s proof hs) := by
  unfold verify verifyC
  refine Follows.ite (fun _ => .ok ⟨rfl, Nat.zero_le _, fun h => absurd rfl h⟩) fun hl => ?_
  obtain ⟨b, e, hb⟩ := checkSanity_ok (H := H) hn62 proof
  rw [h.ph.num, e, ok_bind, ok_bind]
  cases b with
  | false => exact .ok ⟨rfl, Nat.zero_le _, fun h => absurd rfl h⟩
  | true =>
    have hS' := (hb.1 rfl).1
    simp only [Bool.not_true, Bool.false_eq_true, if_false]
    refine Follows.ite (fun _ => .ok ⟨rfl, Nat.zero_le _, fun h => absurd rfl h⟩) fun ht => ?_
    have hK : (ctxOf s n f A proof hs).Ok := ⟨hS', h.ph.shape, h.ph.hashed, h.out, fun r x => mt_succ f r x⟩
    rcases createProofTree_ok (K := ctxOf s n f A proof hs) (s := s) (proof := proof) hK h.ph.num rfl h.ph.roots rfl rfl (fun hh => hh.2) with
      ⟨e1, hz⟩ | ⟨c, tree, e1, ⟨cs, A1, I, P, etree⟩, hc⟩ | ⟨c, tree, e1, nh, k, dn, cs, A1, I⟩
    · rw [e1]
      exact .error _
    · rw [e1]
      simp only [ok_bind, if_true]
      have B := base_of hK I P
      have V := vi_of hK I hs
      have e2 : tree = (Vn n proof.sorted 0).map fun y => cs.idxOf (0, y) := etree
      rw [e2]
      refine Follows.bind (R := Costs fun c _ => c ≤ computed n proof.sorted 1 66) ?_ ?_
      · exact verifyProofTree_work (K := ctxOf s n f A proof hs) B (fun hh => by
          have := hh.1
          rw [this]
          rfl) V
      · rintro ⟨⟨ok, t⟩, k⟩ b ⟨rfl, hk⟩
        refine Follows.ite (fun _ => ?_) fun _ => ?_
        · refine Follows.seq fun heap => ?_
          exact .ok ⟨rfl, hk, fun _ => ⟨hS', by simpa using hl⟩⟩
        · refine Follows.seq fun m => ?_
          exact .ok ⟨rfl, hk, fun _ => ⟨hS', by simpa using hl⟩⟩
    · rw [e1]
      simp only [ok_bind, pure_bind, Bool.false_eq_true, if_false, Bool.not_false, if_true]
      refine Follows.seq fun heap => ?_
      exact .ok ⟨rfl, Nat.zero_le _, fun h => absurd rfl h⟩

/-! ## The number of computed nodes -/

theorem computed_list {n : ℕ} {D : List ℕ} (hS : Sane n D) (k m : ℕ) :
    ∃ l : List (ℕ × ℕ), l.Nodup ∧ l.length = computed n D k m ∧ ∀ r x, (r, x) ∈ l ↔ (k ≤ r ∧ r < k + m) ∧ x ∈ Cn n D r := by
  induction m generalizing k with
  | zero => exact ⟨[], List.nodup_nil, rfl, by intro r x; simp⟩
  | succ m ih =>
    obtain ⟨l, h1, h2, h3⟩ := ih (k + 1)
    refine ⟨(Cn n D k).map (fun x => (k, x)) ++ l, ?_, ?_, ?_⟩
    · rw [List.nodup_append]
      refine ⟨?_, h1, ?_⟩
      · refine List.Nodup.map (fun a b h => by simpa using h) ?_
        exact ((Cn_ok hS k).1.imp fun h => Nat.ne_of_lt h)
      · rintro a ha b hb rfl
        obtain ⟨x, -, rfl⟩ := List.mem_map.1 ha
        have := ((h3 _ _).1 hb).1.1
        omega
    · rw [List.length_append, List.length_map, h2]
      unfold computed
      rw [List.range'_succ, List.map_cons, List.sum_cons]
    · intro r x
      rw [List.mem_append, h3, List.mem_map]
      constructor
      · rintro (⟨y, hy, e⟩ | ⟨h, hx⟩)
        · cases e; exact ⟨by omega, hy⟩
        · exact ⟨by omega, hx⟩
      · rintro ⟨h, hx⟩
        by_cases hr : r = k
        · subst hr; exact .inl ⟨x, hx, rfl⟩
        · exact .inr ⟨by omega, hx⟩

end Pol
end Utreexo
