import Verif.Proof.PolSelf

/-!
# When the check of `VerifyProofTree` fires

A checked verification does what an unchecked one does, or it aborts at a cached target that is no root, whose node
has no remember mark at that moment and whose hash is not in the position map.
-/

set_option linter.unusedSectionVars false

namespace Utreexo
open Spec Equiv

variable {H : Type} [DecidableEq H] [HashOps H]

namespace Pol

/-- What the check finds wrong with the leaf `x` of the batch `D`. -/
def Bad (heap : List (INode H)) (m : PosMap H) (n : ℕ) (A : Addr) (c : ℕ → H) (D : List ℕ) (x : ℕ) : Prop :=
  (∃ p, A 0 x = some p ∧ nz heap (some p) 0 = none) ∧ rtOf n 0 x = false ∧ PosMap.find m (c x) = none ∧
    ¬ (x ^^^ 1 ∈ D ∧ x ^^^ 1 < x)

section
variable {K : Ctx H} {hs0 : List H} {A1 : Addr} {cs : List (ℕ × ℕ)} {heap1 : List (INode H)}

theorem targetCheck_iff {t : VPT H} {ν : ℕ → ℕ → Bool} {m : PosMap H} (B : Base K A1 cs heap1) (W : VW K A1 cs heap1 t ν)
    {k x : ℕ} (hm : (k, x) ∈ cs) : ∃ b, targetCheck K.n m t (cs.idxOf (k, x)) = .ok b ∧ (b = false ↔
      k = 0 ∧ x ∈ K.D ∧ ∃ ths p, t.targets = K.c 0 x :: ths ∧ K.A0 0 x = some p ∧ rtOf K.n 0 x = false ∧
        nz t.heap (some p) 0 = none ∧ PosMap.find m (K.c 0 x) = none) := by
  unfold targetCheck
  rw [vecGet_ok (W.node hm)]
  have v3 : (vn K.n K.A0 A1 cs (tauF K.n K.D) ν (k, x)).pos = posOf (St.numRows K.n) k x := rfl
  have v4 : (vn K.n K.A0 A1 cs (tauF K.n K.D) ν (k, x)).node = A1 k x := rfl
  have v6 : (vn K.n K.A0 A1 cs (tauF K.n K.D) ν (k, x)).cached = (K.A0 k x).isSome := rfl
  have vt : (vn K.n K.A0 A1 cs (tauF K.n K.D) ν (k, x)).target = decide (x ∈ Cn K.n K.D k) := rfl
  simp only [ok_bind, v3, v4, v6, vt]
  by_cases hx : x ∈ Cn K.n K.D k
  swap
  · refine ⟨true, by simp [hx], ?_⟩
    simp only [Bool.true_eq_false, false_iff]
    rintro ⟨rfl, h, -⟩
    exact hx h
  simp only [hx, decide_true, Bool.not_true, Bool.false_eq_true, if_false]
  by_cases hlt : posOf (St.numRows K.n) k x < K.n
  swap
  · rw [if_neg hlt]
    refine ⟨true, rfl, ?_⟩
    simp only [Bool.true_eq_false, false_iff]
    rintro ⟨rfl, -⟩
    exact hlt ((pos_lt_iff B.ok.sane.n62 (B.inn hm)).2 rfl)
  rw [if_pos hlt]
  obtain rfl := (pos_lt_iff B.ok.sane.n62 (B.inn hm)).1 hlt
  have hxD : x ∈ K.D := hx
  have hin : x < K.n := by simpa using B.inn hm
  cases ht : t.targets with
  | nil =>
    refine ⟨true, rfl, ?_⟩
    simp
  | cons th ths =>
    simp only []
    cases h0 : K.A0 0 x with
    | none =>
      refine ⟨true, rfl, ?_⟩
      simp
    | some p =>
      obtain ⟨p', z, hp, hg, hv⟩ := W.get B hm
      obtain rfl : p' = p := by have := B.ext _ _ _ h0; rw [hp] at this; exact Option.some.inj this
      have hc : val t.heap A1 0 x = some (K.c 0 x) := W.cached B (by rw [h0]; rfl)
      have hzc : z.hash = K.c 0 x := by rw [hv] at hc; simpa using hc
      simp only [Option.isSome_some, Bool.not_true, Bool.false_eq_true, if_false]
      rw [hp, deref_ok hg, ok_bind, hzc]
      by_cases hne : K.c 0 x = th
      swap
      · rw [if_pos hne]
        refine ⟨true, rfl, ?_⟩
        simp only [Bool.true_eq_false, false_iff]
        rintro ⟨-, -, ths', p, e, -⟩
        exact hne (List.cons.inj e).1.symm
      rw [if_neg (by simpa using hne), rootPosition_eq B.ok.sane.n62 (Nat.zero_le _), ok_bind]
      refine ⟨_, rfl, ?_⟩
      rw [posOf_zero, posOf_zero]
      have hrt : (x == rootIdx K.n 0) = rtOf K.n 0 x := by
        rw [Bool.eq_iff_iff, rtOf_iff (by simpa using hin)]
        simp only [beq_iff_eq, rootIdx]
        omega
      have hz0 : z.n0 = none ∨ z.n0 = some remember := by
        have h3 := (W.shape.leaf x).2
        rw [hp] at h3
        rcases h3 with h3 | h3
        · left; rw [nz_some hg] at h3; exact h3
        · right; rw [nz_some hg] at h3; exact h3
      have hn0 : (z.n0 == some remember) = false ↔ INode.niece z 0 = none := by
        show _ ↔ z.n0 = none
        rcases hz0 with h | h <;> simp [h]
      simp only [Bool.or_eq_false_iff, hrt, hn0, true_and, hne]
      constructor
      · rintro ⟨⟨h1, h2⟩, h3⟩
        exact ⟨hxD, ths, p', rfl, rfl, h1, by rw [nz_some hg]; exact h2, by simpa using h3⟩
      · rintro ⟨-, ths', p, -, hpp, h1, h2, h3⟩
        obtain rfl := Option.some.inj hpp
        rw [nz_some hg] at h2
        exact ⟨⟨h1, h2⟩, by simpa using h3⟩

/-- The marks set so far belong to the targets done so far. -/
def Fd (K : Ctx H) (A1 : Addr) (t : VPT H) (done : List ℕ) : Prop :=
  ∀ x p, K.A0 0 x = some p → (nz t.heap (some p) 0).isSome → (nz K.heap0 (some p) 0).isSome ∨
    ∃ y ∈ done, holder (rtOf K.n) A1 0 y = some p

theorem deref_inv {heap : List (INode H)} {p : Option ℕ} {x : INode H} (h : deref heap p = .ok x) :
    ∃ q, p = some q ∧ heap[q]? = some x := by
  cases p with
  | none => cases h
  | some q =>
    refine ⟨q, rfl, ?_⟩
    unfold deref vecGet at h
    cases e : heap[q]? with
    | none => simp only [e] at h; cases h
    | some y => simp only [e] at h; cases h; rfl

theorem store_inv {heap heap' : List (INode H)} {p : Option ℕ} {x : INode H} (h : store heap p x = .ok heap') :
    ∃ q, p = some q ∧ q < heap.length ∧ heap' = heap.set q x := by
  cases p with
  | none => cases h
  | some q =>
    refine ⟨q, rfl, ?_⟩
    by_cases hq : q < heap.length
    · rw [store_ok hq] at h
      cases h
      exact ⟨hq, rfl⟩
    · unfold store vecSet at h
      simp only [if_neg hq] at h
      cases h

/-- A target leaf that the loop accepts: only its own mark is changed, and if it is cached its hash is the next one given. -/
theorem vptNode_cont {n : ℕ} {t t' : VPT H} {next nx : List ℕ} {id : ℕ} {v : VNode} (hv : t.arena[id]? = some v) (hp : v.pos < n)
    (ht : v.target = true) (h : vptNode n t next id = .ok (.cont (t', nx))) :
    (∀ q, v.sib ≠ some q → nz t'.heap (some q) 0 = nz t.heap (some q) 0) ∧
    ∃ th x, t.targets = th :: t'.targets ∧ deref t.heap v.node = .ok x ∧ (v.cached = true → x.hash = th) := by
  unfold vptNode at h
  rw [vecGet_ok hv] at h
  simp only [ok_bind, ht, Bool.not_true, Bool.false_eq_true, if_false, if_pos hp] at h
  have e1 : (if v.valid = true then { t with arena := markValid t.arena v.parent } else t).targets = t.targets := by split <;> rfl
  have e2 : (if v.valid = true then { t with arena := markValid t.arena v.parent } else t).heap = t.heap := by split <;> rfl
  rw [e1, e2] at h
  cases hth : t.targets with
  | nil => rw [hth] at h; cases h
  | cons th ths =>
    rw [hth] at h
    simp only [] at h
    obtain ⟨x, hx, h⟩ := bind_eq_ok.1 h
    by_cases hc : (v.cached && decide (x.hash ≠ th)) = true
    · rw [if_pos hc] at h; cases h
    rw [if_neg hc] at h
    obtain ⟨px, hpx, hgx⟩ := deref_inv hx
    have key : ∀ (heap : List (INode H)) (ar : List VNode) (nx' : List ℕ), (∀ q, nz heap (some q) 0 = nz t.heap (some q) 0) →
        ((do
          let y ← deref heap v.sib
          let heap ← store heap v.sib { y with n0 := some remember }
          .ok (.cont ({ heap := heap, arena := ar, targets := ths }, nx')) : Res (Step (VPT H × List ℕ))) = .ok (.cont (t', nx))) →
        (∀ q, v.sib ≠ some q → nz t'.heap (some q) 0 = nz t.heap (some q) 0) ∧ t'.targets = ths := by
      intro heap ar nx' hh h
      obtain ⟨y, hy, h⟩ := bind_eq_ok.1 h
      obtain ⟨heap2, h2, h⟩ := bind_eq_ok.1 h
      obtain ⟨ps, hps, hls, rfl⟩ := store_inv h2
      cases h
      refine ⟨?_, rfl⟩
      intro q hq
      rw [nz_set_ne (by rintro rfl; exact hq hps)]
      exact hh q
    by_cases hca : v.cached = true
    · have hxt : x.hash = th := by
        by_contra hc2
        apply hc
        rw [hca]; simpa using hc2
      rw [if_pos hca] at h
      simp only [pure_ok, ok_bind] at h
      obtain ⟨k1, k2⟩ := key t.heap _ _ (fun _ => rfl) h
      exact ⟨k1, th, x, by rw [k2], hx, fun _ => hxt⟩
    · rw [if_neg hca] at h
      obtain ⟨heap1, h1, h⟩ := bind_eq_ok.1 h
      obtain ⟨ps, hps, hls, rfl⟩ := store_inv h1
      rw [hpx] at hps
      obtain rfl := Option.some.inj hps
      obtain ⟨k1, k2⟩ := key _ _ _ (fun q => nz_setHash hgx th (some q) 0) h
      exact ⟨k1, th, x, by rw [k2], hx, fun hcc => absurd hcc hca⟩

/-- The bottom row. -/
theorem vptRowV_zero {m : PosMap H} (B : Base K A1 cs heap1) (hon : K.hon → hs0 = K.D.map (K.c 0)) :
    ∀ (l : List ℕ) (t : VPT H) (ν : ℕ → ℕ → Bool) (done pl : List ℕ), VI K hs0 A1 cs heap1 t ν 0 done → Fd K A1 t done →
    l.Pairwise (· < ·) → (∀ y ∈ l, y ∈ Vn K.n K.D 0) → (∀ d ∈ done, ∀ y ∈ l, d < y) →
    done ++ l.filter (fun x => decide (x ∈ Cn K.n K.D 0)) = Cn K.n K.D 0 → NextOk K.n 0 pl done → (∀ y ∈ pl, (0 + 1, y) ∈ cs) →
    (vptRowV K.n m (l.map fun y => cs.idxOf (0, y)) t (pl.map fun y => cs.idxOf (0 + 1, y)) =
        vptRow K.n (l.map fun y => cs.idxOf (0, y)) t (pl.map fun y => cs.idxOf (0 + 1, y)) ∧
      ∀ r, vptRow K.n (l.map fun y => cs.idxOf (0, y)) t (pl.map fun y => cs.idxOf (0 + 1, y)) = .ok (.cont r) →
        ∀ x ∈ l, x ∈ K.D → ¬ Bad K.heap0 m K.n K.A0 (K.c 0) K.D x) ∨
    (vptRowV K.n m (l.map fun y => cs.idxOf (0, y)) t (pl.map fun y => cs.idxOf (0 + 1, y)) = .error .abort ∧
      ∃ x, (x, K.c 0 x) ∈ K.D.zip hs0 ∧ Bad K.heap0 m K.n K.A0 (K.c 0) K.D x) := by
  intro l
  induction l with
  | nil => intros; left; exact ⟨rfl, by simp⟩
  | cons x l ih =>
    intro t ν done pl V F hs hv hlt hC N hpl
    obtain ⟨hs1, hs2⟩ := List.pairwise_cons.1 hs
    have hv' : ∀ y ∈ l, y ∈ Vn K.n K.D 0 := fun y hy => hv y (List.mem_cons_of_mem _ hy)
    have hm : (0, x) ∈ cs := (B.mem _ _).2 (hv x (by simp))
    obtain ⟨b, eb, hb⟩ := targetCheck_iff (m := m) B V.toVW hm
    rw [List.map_cons, vptRow, vptRowV, eb]
    simp only [ok_bind]
    by_cases hx : x ∈ Cn K.n K.D 0
    · have hxD : x ∈ K.D := hx
      have hd : x ∉ done := by
        intro h
        have := hlt x h x (by simp); omega
      rw [List.filter_cons_of_pos (by simpa using hx)] at hC
      have hC' : done ++ x :: l.filter (fun x => decide (x ∈ Cn K.n K.D 0)) = K.D := hC
      cases b with
      | false =>
        right
        obtain ⟨-, -, ths, p, h1, h2, h3, h4, h5⟩ := hb.1 rfl
        refine ⟨rfl, x, ?_, ⟨p, h2, ?_⟩, h3, h5, ?_⟩
        · have tgt := V.tgt
          rw [if_pos rfl, h1] at tgt
          apply List.mem_iff_getElem?.2
          refine ⟨done.length, ?_⟩
          rw [List.getElem?_zip_eq_some]
          constructor
          · rw [← hC', List.getElem?_append_right le_rfl]; simp
          · have : (hs0.map some)[done.length]? = some (some (K.c 0 x)) := by
              rw [tgt, List.getElem?_append_right (by simp)]; simp
            simpa using this
        · cases hz : nz K.heap0 (some p) 0 with
          | none => rfl
          | some q =>
            have := V.flg x p h2 (by rw [hz]; rfl)
            rw [h4] at this
            simp at this
        · rintro ⟨g1, g2⟩
          have g3 : x ^^^ 1 ∈ done := by
            rw [← hC'] at g1
            rcases List.mem_append.1 g1 with h | h
            · exact h
            · exfalso
              rcases List.mem_cons.1 h with h | h
              · omega
              · have := hs1 _ (List.mem_of_mem_filter h); omega
          have g4 := V.flag (x ^^^ 1) (.inr ⟨rfl, g3⟩)
          have e : (x ^^^ 1) ^^^ 1 = x := by rw [Nat.xor_assoc, Nat.xor_self, Nat.xor_zero]
          rw [holder_sib (B.sibRt hm h3) (by rw [e]; exact h3), e, B.ext _ _ _ h2, h4] at g4
          simp at g4
      | true =>
        rw [show cassert true = .ok () from rfl, ok_bind]
        have hlt0 : posOf (St.numRows K.n) 0 x < K.n := (pos_lt_iff B.ok.sane.n62 (B.inn hm)).2 rfl
        obtain ⟨pl', e1, N', hpl'⟩ := push_ok B N hm hpl (fun d h => hlt d h x (by simp)) ν
        have step := vptNode_leaf (next := pl.map fun y => cs.idxOf (0 + 1, y)) B V hC.symm hd hon
        rw [e1] at step
        rcases step with ⟨t', ν', e, V'⟩ | ⟨t', ν', nx, e, h1, W⟩
        · rw [e]
          simp only [ok_bind]
          obtain ⟨fr, th, z, c1, c2, c3⟩ := vptNode_cont (V.toVW.node hm) hlt0 (by show tauF K.n K.D 0 x = true; unfold tauF; simpa using hx) e
          have F' : Fd K A1 t' (done ++ [x]) := by
            intro u q hq hf
            by_cases hh : holder (rtOf K.n) A1 0 x = some q
            · exact .inr ⟨x, by simp, hh⟩
            · rw [fr q hh] at hf
              rcases F u q hq hf with h | ⟨y, hy, h⟩
              · exact .inl h
              · exact .inr ⟨y, List.mem_append_left _ hy, h⟩
          have ih' := ih t' ν' (done ++ [x]) pl' V' F' hs2 hv' (by
            intro d hd' y hy
            rcases List.mem_append.1 hd' with h | h
            · exact hlt d h y (List.mem_cons_of_mem _ hy)
            · rw [List.mem_singleton.1 h]; exact hs1 y hy) (by rw [List.append_assoc]; exact hC) N' hpl'
          rcases ih' with ⟨i1, i2⟩ | i
          · left
            refine ⟨i1, ?_⟩
            intro r hr y hy hyD
            rcases List.mem_cons.1 hy with rfl | hy
            · rintro ⟨⟨p, g1, g2⟩, g3, g4, g5⟩
              obtain ⟨p', z', hp, hg, hval⟩ := V.toVW.get B hm
              obtain rfl : p' = p := by have := B.ext _ _ _ g1; rw [hp] at this; exact Option.some.inj this
              have hc : val t.heap A1 0 y = some (K.c 0 y) := V.toVW.cached B (by rw [g1]; rfl)
              have hzc : z'.hash = K.c 0 y := by rw [hval] at hc; simpa using hc
              have v4 : (vn K.n K.A0 A1 cs (tauF K.n K.D) ν (0, y)).node = A1 0 y := rfl
              rw [v4, hp, deref_ok hg] at c2
              obtain rfl := Except.ok.inj c2
              have c4 : z'.hash = th := c3 (by show (K.A0 0 y).isSome = true; rw [g1]; rfl)
              have : (true : Bool) = false := hb.2 ⟨rfl, hyD, t'.targets, p', by rw [c1, ← c4, hzc], g1, g3, ?_, g4⟩
              · simp at this
              · cases hz : nz t.heap (some p') 0 with
                | none => rfl
                | some q =>
                  exfalso
                  rcases F y p' g1 (by rw [hz]; rfl) with h | ⟨w, hw, h⟩
                  · rw [g2] at h; simp at h
                  · rcases holder_some h with ⟨k1, k2⟩ | ⟨k1, k2, k3⟩
                    · obtain ⟨-, rfl⟩ := V.shape.inj _ _ _ _ _ k2 hp
                      rw [g3] at k1; simp at k1
                    · obtain ⟨-, k4⟩ := V.shape.inj _ _ _ _ _ k3 hp
                      have e : w = y ^^^ 1 := by rw [← k4, Nat.xor_assoc, Nat.xor_self, Nat.xor_zero]
                      apply g5
                      rw [← e]
                      exact ⟨by rw [← hC']; exact List.mem_append_left _ hw, hlt w hw y (by simp)⟩
            · exact i2 r hr y hy hyD
          · exact .inr i
        · rw [e]
          simp only [ok_bind]
          left
          refine ⟨trivial, ?_⟩
          intro r hr
          cases hr
    · obtain rfl : b = true := by
        by_contra hc
        exact hx (hb.1 (by simpa using hc)).2.1
      rw [show cassert true = .ok () from rfl, ok_bind]
      rw [List.filter_cons_of_neg (by simpa using hx)] at hC
      have hno : vptNode K.n t (pl.map fun y => cs.idxOf (0 + 1, y)) (cs.idxOf (0, x)) =
          .ok (.cont (t, pl.map fun y => cs.idxOf (0 + 1, y))) := by
        unfold vptNode
        have v1 : (vn K.n K.A0 A1 cs (tauF K.n K.D) ν (0, x)).target = false := by
          show tauF K.n K.D 0 x = false
          unfold tauF; simpa using hx
        rw [vecGet_ok (V.toVW.node hm)]
        simp only [ok_bind, v1, Bool.not_false, if_true]
        rfl
      rw [hno]
      simp only [ok_bind]
      rcases ih t ν done pl V F hs2 hv' (fun d h y hy => hlt d h y (List.mem_cons_of_mem _ hy)) hC N hpl with ⟨i1, i2⟩ | i
      · left
        refine ⟨i1, ?_⟩
        intro r hr y hy hyD
        rcases List.mem_cons.1 hy with rfl | hy
        · exact absurd hyD hx
        · exact i2 r hr y hy hyD
      · exact .inr i

/-- The rows above are not checked. -/
theorem vptRowV_up {m : PosMap H} (B : Base K A1 cs heap1) (hon : K.hon → hs0 = K.D.map (K.c 0)) {k : ℕ} (hk : k ≠ 0) :
    ∀ (l : List ℕ) (t : VPT H) (ν : ℕ → ℕ → Bool) (done pl : List ℕ), VI K hs0 A1 cs heap1 t ν k done →
    l.Pairwise (· < ·) → (∀ y ∈ l, y ∈ Vn K.n K.D k) → (∀ d ∈ done, ∀ y ∈ l, d < y) →
    done ++ l.filter (fun x => decide (x ∈ Cn K.n K.D k)) = Cn K.n K.D k → NextOk K.n k pl done → (∀ y ∈ pl, (k + 1, y) ∈ cs) →
    vptRowV K.n m (l.map fun y => cs.idxOf (k, y)) t (pl.map fun y => cs.idxOf (k + 1, y)) =
      vptRow K.n (l.map fun y => cs.idxOf (k, y)) t (pl.map fun y => cs.idxOf (k + 1, y)) := by
  intro l
  induction l with
  | nil => intros; rfl
  | cons x l ih =>
    intro t ν done pl V hs hv hlt hC N hpl
    obtain ⟨hs1, hs2⟩ := List.pairwise_cons.1 hs
    have hv' : ∀ y ∈ l, y ∈ Vn K.n K.D k := fun y hy => hv y (List.mem_cons_of_mem _ hy)
    have hm : (k, x) ∈ cs := (B.mem _ _).2 (hv x (by simp))
    obtain ⟨b, eb, hb⟩ := targetCheck_iff (m := m) B V.toVW hm
    obtain rfl : b = true := by
      by_contra hc
      exact hk (hb.1 (by simpa using hc)).1
    rw [List.map_cons, vptRow, vptRowV, eb]
    simp only [ok_bind]
    rw [show cassert true = .ok () from rfl, ok_bind]
    by_cases hx : x ∈ Cn K.n K.D k
    · have hd : x ∉ done := by
        intro h
        have := hlt x h x (by simp); omega
      rw [List.filter_cons_of_pos (by simpa using hx)] at hC
      obtain ⟨pl', e1, N', hpl'⟩ := push_ok B N hm hpl (fun d h => hlt d h x (by simp)) ν
      have step : NodeOut K hs0 A1 cs heap1 k (done ++ [x]) (pl'.map fun y => cs.idxOf (k + 1, y))
          (vptNode K.n t (pl.map fun y => cs.idxOf (k + 1, y)) (cs.idxOf (k, x))) := by
        rw [← e1]
        cases k with
        | zero => exact absurd rfl hk
        | succ q => exact vptNode_inner B V hx hd
      rcases step with ⟨t', ν', e, V'⟩ | ⟨t', ν', nx, e, h1, W⟩
      · rw [e]
        simp only [ok_bind]
        refine ih t' ν' (done ++ [x]) pl' V' hs2 hv' ?_ (by rw [List.append_assoc]; exact hC) N' hpl'
        intro d hd' y hy
        rcases List.mem_append.1 hd' with h | h
        · exact hlt d h y (List.mem_cons_of_mem _ hy)
        · rw [List.mem_singleton.1 h]; exact hs1 y hy
      · rw [e]
        simp only [ok_bind]
    · rw [List.filter_cons_of_neg (by simpa using hx)] at hC
      have hno : vptNode K.n t (pl.map fun y => cs.idxOf (k + 1, y)) (cs.idxOf (k, x)) =
          .ok (.cont (t, pl.map fun y => cs.idxOf (k + 1, y))) := by
        unfold vptNode
        have v1 : (vn K.n K.A0 A1 cs (tauF K.n K.D) ν (k, x)).target = false := by
          show tauF K.n K.D k x = false
          unfold tauF; simpa using hx
        rw [vecGet_ok (V.toVW.node hm)]
        simp only [ok_bind, v1, Bool.not_false, if_true]
        rfl
      rw [hno]
      simp only [ok_bind]
      exact ih t ν done pl V hs2 hv' (fun d h y hy => hlt d h y (List.mem_cons_of_mem _ hy)) hC N hpl

theorem vptRowsV_up {m : PosMap H} (B : Base K A1 cs heap1) (hon : K.hon → hs0 = K.D.map (K.c 0)) :
    ∀ (fuel k : ℕ) (t : VPT H) (ν : ℕ → ℕ → Bool), VI K hs0 A1 cs heap1 t ν (k + 1) [] →
    vptRowsV K.n m fuel t ((Cn K.n K.D (k + 1)).map fun y => cs.idxOf (k + 1, y)) =
      vptRows K.n fuel t ((Cn K.n K.D (k + 1)).map fun y => cs.idxOf (k + 1, y)) := by
  intro fuel
  induction fuel with
  | zero => intro k t ν _; rfl
  | succ fuel ih =>
    intro k t ν V
    rw [vptRows, vptRowsV]
    by_cases hC : ((Cn K.n K.D (k + 1)).map fun y => cs.idxOf (k + 1, y)).isEmpty = true
    · rw [if_pos hC, if_pos hC]
    rw [if_neg hC, if_neg hC]
    have hpre : ∀ y ∈ Cn K.n K.D (k + 1), y ∈ Vn K.n K.D (k + 1) := fun y hy => Cn_sub B.ok.sane hy
    have hall : [] ++ (Cn K.n K.D (k + 1)).filter (fun x => decide (x ∈ Cn K.n K.D (k + 1))) = Cn K.n K.D (k + 1) := by
      rw [List.nil_append]; apply List.filter_eq_self.2; simp
    have e := vptRowV_up (m := m) B hon (k := k + 1) (by omega) (Cn K.n K.D (k + 1)) t ν [] [] V (Cn_ok B.ok.sane _).1 hpre
        (by simp) hall ⟨by simp, by simp⟩ (by simp)
    have h := vptRow_ok B hon (k := k + 1) (Cn K.n K.D (k + 1)) t ν [] [] V (Cn_ok B.ok.sane _).1 hpre
        (by simp) hall ⟨by simp, by simp⟩ (by simp)
    rw [List.map_nil] at h e
    rw [e]
    rcases h with ⟨t', ν', e, V'⟩ | ⟨t', ν', nx, e, h1, W⟩
    · rw [e]
      simp only [ok_bind]
      exact ih (k + 1) t' ν' V'.up
    · rw [e]
      simp only [ok_bind]

/-- `VerifyProofTree` with the checks. -/
theorem verifyProofTreeV_iff {m : PosMap H} (B : Base K A1 cs heap1) (hon : K.hon → hs0 = K.D.map (K.c 0)) {t : VPT H}
    (V : VI K hs0 A1 cs heap1 t (fun _ _ => false) 0 []) (F : Fd K A1 t []) :
    (verifyProofTreeV K.n m t ((Vn K.n K.D 0).map fun y => cs.idxOf (0, y)) =
        verifyProofTree K.n t ((Vn K.n K.D 0).map fun y => cs.idxOf (0, y)) ∧
      ∀ t', verifyProofTree K.n t ((Vn K.n K.D 0).map fun y => cs.idxOf (0, y)) = .ok (true, t') →
        ∀ x ∈ K.D, ¬ Bad K.heap0 m K.n K.A0 (K.c 0) K.D x) ∨
    (verifyProofTreeV K.n m t ((Vn K.n K.D 0).map fun y => cs.idxOf (0, y)) = .error .abort ∧
      ∃ x, (x, K.c 0 x) ∈ K.D.zip hs0 ∧ Bad K.heap0 m K.n K.A0 (K.c 0) K.D x) := by
  have hsub : ∀ x ∈ K.D, x ∈ Vn K.n K.D 0 := fun x hx => Cn_sub B.ok.sane (k := 0) hx
  have e := vptRowV_zero (m := m) B hon (Vn K.n K.D 0) t _ [] [] V F (Vn_sorted B.ok.sane _) (fun y hy => hy)
    (by simp) (by rw [List.nil_append]; exact Vn_comp B.ok.sane 0) ⟨by simp, by simp⟩ (by simp)
  have h := vptRow_ok B hon (k := 0) (Vn K.n K.D 0) t _ [] [] V (Vn_sorted B.ok.sane _) (fun y hy => hy)
    (by simp) (by rw [List.nil_append]; exact Vn_comp B.ok.sane 0) ⟨by simp, by simp⟩ (by simp)
  rw [List.map_nil] at h e
  unfold verifyProofTree verifyProofTreeV
  rw [vptRows, vptRowsV]
  by_cases hC : ((Vn K.n K.D 0).map fun y => cs.idxOf (0, y)).isEmpty = true
  · rw [if_pos hC, if_pos hC]
    left
    refine ⟨rfl, ?_⟩
    intro t' _ x hx
    have := hsub x hx
    simp only [List.isEmpty_iff, List.map_eq_nil_iff] at hC
    rw [hC] at this
    simp at this
  rw [if_neg hC, if_neg hC]
  rcases e with ⟨e, e'⟩ | ⟨e, e'⟩
  · left
    rw [e]
    rcases h with ⟨t', ν', h, V'⟩ | ⟨t', ν', nx, h, h1, W⟩
    · rw [h] at e' ⊢
      simp only [ok_bind]
      rw [vptRowsV_up B hon 66 0 t' ν' V'.up]
      exact ⟨rfl, fun _ _ x hx => e' _ rfl x (hsub x hx) hx⟩
    · rw [h]
      simp only [ok_bind]
      refine ⟨by trivial, ?_⟩
      intro t'' ht
      cases ht
  · right
    rw [e]
    exact ⟨rfl, e'⟩

end

/-- The marks before a verification. -/
theorem fd_of {K : Ctx H} {c : CPT H} {cs : List (ℕ × ℕ)} {A1 : Addr} (I : CI K c 0 K.D cs A1) (hs : List H) :
    Fd K A1 (VPT.mk c.heap c.arena hs) [] := by
  intro x p hp hf
  left
  rw [← I.flg x p hp]; exact hf

/-- `Verify` with the checks: it does what `Verify` without them does, and if that accepts no target is bad; or it aborts, and
one of the targets is bad. -/
theorem verifyV_iff {s : Pollard H} {n : ℕ} {f : ℕ → H} {A : Addr} (h : Inv s n f A) (hn62 : n ≤ 2 ^ 62)
    (proof : BatchProof H) (hs : List H) :
    (verifyV s proof hs = verify s proof hs ∧
      ∀ s', verify s proof hs = .ok (true, s') → ∀ x, (x, f x) ∈ proof.sorted.zip hs → ¬ Bad s.ext s.posmap n A f proof.sorted x) ∨
    (verifyV s proof hs = .error .abort ∧
      ∃ x, (x, f x) ∈ proof.sorted.zip hs ∧ Bad s.ext s.posmap n A f proof.sorted x) := by
  unfold verify verifyV
  simp only [createProofTreeV_eq]
  by_cases hl : hs.length ≠ proof.targets.length
  · rw [if_pos hl, if_pos hl]
    exact .inl ⟨by trivial, by intro s' hh; cases hh⟩
  rw [if_neg hl, if_neg hl]
  obtain ⟨b, e, hb⟩ := checkSanity_ok (H := H) hn62 proof
  rw [h.ph.num, e, ok_bind, ok_bind]
  cases b with
  | false =>
    simp only [Bool.not_false, if_true]
    exact .inl ⟨by trivial, by intro s' hh; cases hh⟩
  | true =>
    have hS' := (hb.1 rfl).1
    simp only [Bool.not_true, Bool.false_eq_true, if_false]
    by_cases ht : proof.targets.length = 0
    · rw [if_pos ht, if_pos ht]
      refine .inl ⟨by trivial, ?_⟩
      intro s' _ x hx
      have : hs = [] := List.length_eq_zero_iff.1 (by omega)
      rw [this, List.zip_nil_right] at hx
      simp at hx
    rw [if_neg ht, if_neg ht]
    have hK : (ctxOf s n f A proof hs).Ok := ⟨hS', h.ph.shape, h.ph.hashed, h.out, fun r x => mt_succ f r x⟩
    rcases createProofTree_ok (K := ctxOf s n f A proof hs) (s := s) (proof := proof) hK h.ph.num rfl h.ph.roots rfl rfl (fun hh => hh.2) with
      ⟨e1, hz⟩ | ⟨c, tree, e1, ⟨cs, A1, I, P, etree⟩, hc⟩ | ⟨c, tree, e1, nh, k, dn, cs, A1, I⟩
    · rw [e1]
      simp only [error_bind]
      exact .inl ⟨by trivial, by intro s' hh; cases hh⟩
    · rw [e1]
      simp only [ok_bind, if_true]
      have B := base_of hK I P
      have V := vi_of hK I hs
      have e2 : tree = (Vn n proof.sorted 0).map fun y => cs.idxOf (0, y) := etree
      have key := verifyProofTreeV_iff (K := ctxOf s n f A proof hs) (m := s.posmap) B (fun hh => by
        have := hh.1
        rw [this]
        rfl) V (fd_of I hs)
      rw [e2]
      rcases key with ⟨k1, k2⟩ | ⟨k1, k2⟩
      · left
        have k1' : verifyProofTreeV n s.posmap (VPT.mk c.heap c.arena hs) ((Vn n proof.sorted 0).map fun y => cs.idxOf (0, y)) =
          verifyProofTree n (VPT.mk c.heap c.arena hs) ((Vn n proof.sorted 0).map fun y => cs.idxOf (0, y)) := k1
        rw [k1']
        refine ⟨rfl, ?_⟩
        intro s' hh
        obtain ⟨⟨ok, t⟩, a1, a2⟩ := bind_eq_ok.1 hh
        cases ok with
        | false =>
          simp only [Bool.not_false, if_true] at a2
          obtain ⟨_, _, a3⟩ := bind_eq_ok.1 a2
          cases a3
        | true => exact fun x hx => k2 t a1 x (List.of_mem_zip hx).1
      · right
        have k1' : verifyProofTreeV n s.posmap (VPT.mk c.heap c.arena hs) ((Vn n proof.sorted 0).map fun y => cs.idxOf (0, y)) =
          .error .abort := k1
        rw [k1']
        exact ⟨rfl, k2⟩
    · rw [e1]
      simp only [ok_bind, Bool.false_eq_true, if_false]
      refine .inl ⟨by trivial, ?_⟩
      intro s' hh
      simp only [pure_ok, ok_bind, Bool.not_false, if_true] at hh
      obtain ⟨_, _, a3⟩ := bind_eq_ok.1 hh
      cases a3

end Pol
end Utreexo
