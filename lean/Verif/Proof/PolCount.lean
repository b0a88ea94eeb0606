import Verif.Proof.PolApi

/-!
# Counting the nodes and the remembered leaves of a pollard
-/

set_option linter.unusedSectionVars false

namespace Utreexo
open Spec Equiv

variable {H : Type} [DecidableEq H] [HashOps H]

namespace Pol

/-- The leaves with property `b` below a node. -/
def leavesIn (b : ℕ → Bool) : ℕ → ℕ → ℕ
  | 0, z => (b z).toNat
  | q + 1, z => leavesIn b q (2 * z) + leavesIn b q (2 * z + 1)

/-- The objects strictly below a node. -/
def objsIn (A : Addr) : ℕ → ℕ → ℕ
  | 0, _ => 0
  | q + 1, z => (if (A q (2 * z)).isSome then 1 else 0) + (if (A q (2 * z + 1)).isSome then 1 else 0) +
      objsIn A q (2 * z) + objsIn A q (2 * z + 1)

theorem mt_or (b : ℕ → Bool) : ∀ q z, @mt Bool kidOps b q z = true ↔ 0 < leavesIn b q z := by
  intro q
  induction q with
  | zero =>
    intro z
    show b z = true ↔ 0 < leavesIn b 0 z
    rw [leavesIn]
    cases b z <;> simp
  | succ q ih =>
    intro z
    rw [@mt_succ Bool kidOps, leavesIn]
    show (_ || _) = true ↔ _
    rw [Bool.or_eq_true, ih, ih]
    omega

theorem leavesIn_eq (b : ℕ → Bool) : ∀ q z, leavesIn b q z = (List.range' (z * 2 ^ q) (2 ^ q)).countP b := by
  intro q
  induction q with
  | zero =>
    intro z
    rw [leavesIn]
    simp only [pow_zero, Nat.mul_one, List.range'_one, List.countP_cons, List.countP_nil, Nat.zero_add]
    cases b z <;> rfl
  | succ q ih =>
    intro z
    rw [leavesIn, ih, ih, ← List.countP_append]
    congr 1
    rw [show z * 2 ^ (q + 1) = 2 * z * 2 ^ q by ring, show (2 * z + 1) * 2 ^ q = 2 * z * 2 ^ q + 2 ^ q by ring,
      List.range'_append_1]
    congr 1
    ring

/-- The trees of the forest contain its leaves. -/
theorem sum_trees (b : ℕ → Bool) (n : ℕ) : ∀ k, ((treeRows n k).map fun t => leavesIn b t (rootIdx n t)).sum +
    (List.range (n / 2 ^ k * 2 ^ k)).countP b = (List.range n).countP b := by
  intro k
  induction k with
  | zero => simp [treeRows]
  | succ k ih =>
    rw [← ih, treeRows]
    have hd : n / 2 ^ (k + 1) = n / 2 ^ k / 2 := by rw [pow_succ, Nat.div_div_eq_div_mul]
    have hb : n.testBit k = decide (n / 2 ^ k % 2 = 1) := by rw [Nat.testBit_eq_decide_div_mod_eq]
    rw [hb]
    split
    · next h =>
      simp only [decide_eq_true_eq] at h
      rw [List.map_cons, List.sum_cons, leavesIn_eq b k]
      have e : n / 2 ^ k * 2 ^ k = n / 2 ^ (k + 1) * 2 ^ (k + 1) + 2 ^ k := by
        have : n / 2 ^ k = 2 * (n / 2 ^ (k + 1)) + 1 := by omega
        rw [this, pow_succ]; ring
      rw [e, List.range_eq_range', List.range_eq_range', ← List.range'_append_1 (s := 0), List.countP_append]
      unfold rootIdx
      rw [show 0 + n / 2 ^ (k + 1) * 2 ^ (k + 1) = n / 2 ^ (k + 1) * 2 * 2 ^ k by rw [pow_succ]; ring]
      omega
    · next h =>
      simp only [decide_eq_true_eq] at h
      have e : n / 2 ^ (k + 1) * 2 ^ (k + 1) = n / 2 ^ k * 2 ^ k := by
        have : n / 2 ^ k = 2 * (n / 2 ^ (k + 1)) := by omega
        rw [this, pow_succ]; ring
      rw [e]

section
variable {heap : List (INode H)} {n : ℕ} {A : Addr}

/-- The children of a node of the forest are no roots. -/
theorem kid_rt {q z c : ℕ} (hz : z < n / 2 ^ (q + 1)) (hc : c / 2 = z) : rtOf n q c = false := rtOf_false (by rw [hc]; exact hz)

theorem kid_in {q z c : ℕ} (hz : z < n / 2 ^ (q + 1)) (hc : c / 2 = z) : c < n / 2 ^ q := by
  rw [div_succ_row] at hz; omega

theorem kid_holder {q z c : ℕ} (hz : z < n / 2 ^ (q + 1)) (hc : c / 2 = z) : holder (rtOf n) A q c = A q (c ^^^ 1) :=
  holder_sib (kid_rt hz hc) (kid_rt hz (by rw [sb_div]; exact hc))

/-- A node with something cached below its child has a child cached. -/
theorem kidc_up (s : Shape heap (rtOf n) A) {q z c : ℕ} (hz : z < n / 2 ^ (q + 1)) (hc : c / 2 = z)
    (h : kidc heap (rtOf n) A q c = true) : (A q (c ^^^ 1)).isSome := by
  rw [← kid_holder (A := A) hz hc]
  cases q with
  | zero =>
    simp only [kidc] at h
    cases hh : holder (rtOf n) A 0 c with
    | none => rw [hh] at h; simp [nz] at h
    | some p => rfl
  | succ q =>
    have hin := kid_in hz hc
    simp only [kidc, Bool.or_eq_true] at h
    cases hh : holder (rtOf n) A (q + 1) c with
    | some p => rfl
    | none =>
      have k : ∀ y, y / 2 = c → A q y = none := by
        intro y hy
        rw [s.kids q y (kid_rt hin hy), hy, hh]; rfl
      rw [k _ (by omega), k _ (by omega)] at h
      simp at h

theorem kidc_up' (s : Shape heap (rtOf n) A) {q z c : ℕ} (hz : z < n / 2 ^ (q + 1)) (hc : c / 2 = z)
    (h : kidc heap (rtOf n) A q c = true) : kidc heap (rtOf n) A (q + 1) z = true := by
  have h1 := kidc_up s hz hc h
  simp only [kidc, Bool.or_eq_true]
  have h2 := sb_div c
  have : c ^^^ 1 = 2 * z ∨ c ^^^ 1 = 2 * z + 1 := by omega
  rcases this with e | e <;> rw [e] at h1
  · exact .inl h1
  · exact .inr h1

/-- Sparsity from one row to the next. -/
theorem sparse_of (s : Shape heap (rtOf n) A) (h : ∀ q z, z < n / 2 ^ (q + 1) → kidc heap (rtOf n) A (q + 1) z = true →
    ∃ c, c / 2 = z ∧ kidc heap (rtOf n) A q c = true) : Sparse heap n A := by
  intro q
  induction q with
  | zero => intro x _; rfl
  | succ q ih =>
    intro x hx
    rw [@mt_succ Bool kidOps, ← ih (2 * x) (kid_in hx (by omega)), ← ih (2 * x + 1) (kid_in hx (by omega))]
    show _ = (kidc heap (rtOf n) A q (2 * x) || kidc heap (rtOf n) A q (2 * x + 1))
    rw [Bool.eq_iff_iff, Bool.or_eq_true]
    constructor
    · intro h1
      obtain ⟨c, hc, h2⟩ := h q x hx h1
      have : c = 2 * x ∨ c = 2 * x + 1 := by omega
      rcases this with rfl | rfl
      · exact .inl h2
      · exact .inr h2
    · rintro (h1 | h1)
      · exact kidc_up' s hx (by omega) h1
      · exact kidc_up' s hx (by omega) h1

theorem Sparse.step (h : Sparse heap n A) {q z : ℕ} (hz : z < n / 2 ^ (q + 1)) (hk : kidc heap (rtOf n) A (q + 1) z = true) :
    ∃ c, c / 2 = z ∧ kidc heap (rtOf n) A q c = true := by
  rw [h (q + 1) z hz, @mt_succ Bool kidOps, ← h q (2 * z) (kid_in hz (by omega)), ← h q (2 * z + 1) (kid_in hz (by omega))] at hk
  replace hk : (kidc heap (rtOf n) A q (2 * z) || kidc heap (rtOf n) A q (2 * z + 1)) = true := hk
  rw [Bool.or_eq_true] at hk
  rcases hk with h1 | h1
  · exact ⟨_, by omega, h1⟩
  · exact ⟨_, by omega, h1⟩

/-- Only roots. -/
theorem sparse_bare (s : Shape heap (rtOf n) A) (h : ∀ r i, rtOf n r i = false → A r i = none) : Sparse heap n A := by
  refine sparse_of s ?_
  intro q z hz hk
  simp only [kidc] at hk
  rw [h q _ (kid_rt hz (by omega)), h q _ (kid_rt hz (by omega))] at hk
  simp at hk

/-- New flags below old objects. -/
theorem Sparse.flags {heap' : List (INode H)} (s' : Shape heap' (rtOf n) A) (hk : FlagKeep heap heap' A)
    (h : Sparse heap n A) : Sparse heap' n A := by
  refine sparse_of s' ?_
  intro q z hz hk'
  have e : ∀ r y, kidc heap' (rtOf n) A (r + 1) y = kidc heap (rtOf n) A (r + 1) y := fun r y => by simp only [kidc]
  rw [e] at hk'
  obtain ⟨c, hc, h1⟩ := h.step hz hk'
  refine ⟨c, hc, ?_⟩
  cases q with
  | zero =>
    simp only [kidc] at h1 ⊢
    cases hh : holder (rtOf n) A 0 c with
    | none => rw [hh] at h1; simp [nz] at h1
    | some p =>
      obtain ⟨j, hj⟩ := holder_addr hh
      rw [hh] at h1
      exact hk j p hj h1
  | succ q => rw [e]; exact h1

/-- After an accepted verification. -/
theorem Accepted.sparse {s s' : Pollard H} {f : ℕ → H} {A1 : Addr} {D : List ℕ} {hs : List H}
    (ha : Accepted s s' n f A A1 D hs) (h : Sparse s.ext n A) : Sparse s'.ext n A1 := by
  refine sparse_of ha.ph.shape ?_
  intro q z hz hk
  simp only [kidc, Bool.or_eq_true] at hk
  have hex : ∃ c, c / 2 = z ∧ (A1 q c).isSome := by
    rcases hk with h1 | h1
    · exact ⟨_, by omega, h1⟩
    · exact ⟨_, by omega, h1⟩
  obtain ⟨c, hc, hc1⟩ := hex
  obtain ⟨p, hp⟩ := Option.isSome_iff_exists.1 hc1
  cases h0 : A q c with
  | some p' =>
    have hk0 : kidc s.ext (rtOf n) A (q + 1) z = true := by
      simp only [kidc, Bool.or_eq_true]
      have : c = 2 * z ∨ c = 2 * z + 1 := by omega
      rcases this with rfl | rfl
      · left; rw [h0]; rfl
      · right; rw [h0]; rfl
    obtain ⟨d, hd, h1⟩ := h.step hz hk0
    refine ⟨d, hd, ?_⟩
    cases q with
    | zero =>
      simp only [kidc] at h1 ⊢
      cases hh : holder (rtOf n) A 0 d with
      | none => rw [hh] at h1; simp [nz] at h1
      | some t =>
        obtain ⟨j, hj⟩ := holder_addr hh
        rw [hh] at h1
        rw [holder_ext ha.ext hh]
        exact ha.keep j t hj h1
    | succ q =>
      simp only [kidc, Bool.or_eq_true] at h1 ⊢
      have up : ∀ y, (A q y).isSome → (A1 q y).isSome := by
        intro y hy
        obtain ⟨t, ht⟩ := Option.isSome_iff_exists.1 hy
        rw [ha.ext _ _ _ ht]; rfl
      exact h1.imp (up _) (up _)
  | none =>
    have hv := ha.new _ _ _ hp h0
    have hpar := Vn_parent ha.sane hv (kid_rt hz hc)
    rw [hc] at hpar
    obtain ⟨-, y, hy, hyz⟩ := (mem_Cn_succ ha.sane).1 hpar
    refine ⟨y, hyz, ?_⟩
    cases q with
    | zero => simp only [kidc]; exact ha.ready.flag y hy
    | succ q =>
      obtain ⟨-, w, hw, hwy⟩ := (mem_Cn_succ ha.sane).1 hy
      have := ha.pres _ _ (Cn_sub ha.sane hw)
      simp only [kidc, Bool.or_eq_true]
      have : w = 2 * y ∨ w = 2 * y + 1 := by omega
      rcases this with rfl | rfl
      · left; assumption
      · right; assumption

/-! ## Counting -/

theorem objs_none (s : Shape heap (rtOf n) A) : ∀ q z, z < n / 2 ^ q → holder (rtOf n) A q z = none → objsIn A q z = 0 := by
  intro q
  induction q with
  | zero => intro z _ _; rfl
  | succ q ih =>
    intro z hz hh
    have k : ∀ y, y / 2 = z → A q y = none := by
      intro y hy
      rw [s.kids q y (kid_rt hz hy), hy, hh]; rfl
    have hl : ∀ y, y / 2 = z → objsIn A q y = 0 := by
      intro y hy
      refine ih y (kid_in hz hy) ?_
      rw [kid_holder hz hy, k _ (by rw [sb_div]; exact hy)]
    rw [objsIn, k _ (by omega), k _ (by omega), hl _ (by omega), hl _ (by omega)]
    rfl

/-- `CountNodes` of a root. -/
theorem cntA_eq (s : Shape heap (rtOf n) A) : ∀ q z, z < n / 2 ^ q →
    (rtOf n q z = true → cntA n A q z = 1 + objsIn A q z) ∧
    (z / 2 < n / 2 ^ (q + 1) → cntA n A q z = (if (A q z).isSome then 1 else 0) + objsIn A q (z ^^^ 1)) := by
  intro q
  induction q with
  | zero =>
    intro z hz
    refine ⟨fun h => ?_, fun _ => by rw [cntA, objsIn]; rfl⟩
    rw [cntA, if_pos (s.root _ _ h)]; rfl
  | succ q ih =>
    intro z hz
    have pair : ∀ y, y < n / 2 ^ (q + 1) → cntA n A q (2 * y) + cntA n A q (2 * y + 1) = objsIn A (q + 1) y := by
      intro y hy
      rw [(ih (2 * y) (kid_in hy (by omega))).2 (by rw [show 2 * y / 2 = y by omega]; exact hy),
        (ih (2 * y + 1) (kid_in hy (by omega))).2 (by rw [show (2 * y + 1) / 2 = y by omega]; exact hy), objsIn]
      have x0 : 2 * y ^^^ 1 = 2 * y + 1 := by rw [xor_one_cases]; split <;> omega
      have x1 : (2 * y + 1) ^^^ 1 = 2 * y := by rw [xor_one_cases]; split <;> omega
      rw [x0, x1]
      omega
    constructor
    · intro h
      rw [cntA, if_pos (s.root _ _ h)]
      simp only [h, if_true]
      have := pair z hz
      omega
    · intro hp
      have hr : rtOf n (q + 1) z = false := rtOf_false hp
      have hs : z ^^^ 1 < n / 2 ^ (q + 1) := kid_in hp (sb_div z)
      rw [cntA]
      simp only [hr, Bool.false_eq_true, if_false]
      have := pair _ hs
      cases ha : A (q + 1) z with
      | some p => simp only [Option.isSome_some, if_true]; omega
      | none =>
        have hh : holder (rtOf n) A (q + 1) (z ^^^ 1) = none := by
          rw [kid_holder hp (sb_div z), sb_sb]; exact ha
        rw [objs_none s _ _ hs hh]; rfl

/-- The objects below a node are on the paths of the remembered leaves. -/
theorem objs_le (h : Sparse heap n A) : ∀ q z, z < n / 2 ^ q → objsIn A q z ≤ 2 * q * leavesIn (kidc heap (rtOf n) A 0) q z := by
  intro q
  induction q with
  | zero => intro z _; simp [objsIn]
  | succ q ih =>
    intro z hz
    have h0 := ih (2 * z) (kid_in hz (by omega))
    have h1 := ih (2 * z + 1) (kid_in hz (by omega))
    have hk := h (q + 1) z hz
    rw [objsIn]
    by_cases hf : 0 < leavesIn (kidc heap (rtOf n) A 0) (q + 1) z
    · rw [leavesIn] at hf ⊢
      generalize leavesIn (kidc heap (rtOf n) A 0) q (2 * z) = a at *
      generalize leavesIn (kidc heap (rtOf n) A 0) q (2 * z + 1) = b at *
      have e : 2 * (q + 1) * (a + b) = 2 * q * a + 2 * q * b + 2 * (a + b) := by ring
      have i1 : (if (A q (2 * z)).isSome then 1 else 0) ≤ 1 := by split <;> omega
      have i2 : (if (A q (2 * z + 1)).isSome then 1 else 0) ≤ 1 := by split <;> omega
      omega
    · have hm : ¬ @mt Bool kidOps (kidc heap (rtOf n) A 0) (q + 1) z = true := by rw [mt_or]; exact hf
      rw [← hk] at hm
      simp only [kidc, Bool.or_eq_true, not_or, Bool.not_eq_true] at hm
      rw [leavesIn] at hf
      have a0 : leavesIn (kidc heap (rtOf n) A 0) q (2 * z) = 0 := by omega
      have b0 : leavesIn (kidc heap (rtOf n) A 0) q (2 * z + 1) = 0 := by omega
      rw [a0] at h0
      rw [b0] at h1
      rw [hm.1, hm.2]
      simp only [Nat.mul_zero, Nat.le_zero] at h0 h1
      rw [h0, h1]
      simp

theorem countRemember_ok (s : Shape heap (rtOf n) A) : ∀ (q z fuel : ℕ), z < n / 2 ^ q → q + 1 < fuel →
    countRemember heap fuel (holder (rtOf n) A q z) = leavesIn (kidc heap (rtOf n) A 0) q z := by
  intro q
  induction q with
  | zero =>
    intro z fuel hz hf
    obtain ⟨k, rfl⟩ : ∃ k, fuel = k + 1 + 1 := ⟨fuel - 2, by omega⟩
    rw [leavesIn]
    simp only [kidc]
    cases hh : holder (rtOf n) A 0 z with
    | none => simp [countRemember, nz]
    | some p =>
      obtain ⟨j, hj⟩ := holder_addr hh
      obtain ⟨x, hx⟩ := s.get hj
      have hp := (s.bnd _ _ _ hj).1
      have hl := s.leaf j
      rw [hj, nz_some hx, nz_some hx] at hl
      have h1 : x.n1 = none := hl.1
      have h0 : x.n0 = none ∨ x.n0 = some 0 := hl.2
      rw [nz_some hx, countRemember]
      simp only [remember, hp, if_false, hx, h1]
      rcases h0 with h0 | h0 <;> simp [h0, countRemember, remember, INode.niece]
  | succ q ih =>
    intro z fuel hz hf
    obtain ⟨k, rfl⟩ : ∃ k, fuel = k + 1 := ⟨fuel - 1, by omega⟩
    rw [leavesIn, ← ih (2 * z) k (kid_in hz (by omega)) (by omega), ← ih (2 * z + 1) k (kid_in hz (by omega)) (by omega),
      kid_holder hz (by omega), kid_holder hz (by omega)]
    have x0 : 2 * z ^^^ 1 = 2 * z + 1 := by rw [xor_one_cases]; split <;> omega
    have x1 : (2 * z + 1) ^^^ 1 = 2 * z := by rw [xor_one_cases]; split <;> omega
    rw [x0, x1]
    have k0 := s.kids q (2 * z) (kid_rt hz (by omega))
    have k1 := s.kids q (2 * z + 1) (kid_rt hz (by omega))
    rw [show (2 * z) / 2 = z by omega, show (2 * z) % 2 = 0 by omega] at k0
    rw [show (2 * z + 1) / 2 = z by omega, show (2 * z + 1) % 2 = 1 by omega] at k1
    cases hh : holder (rtOf n) A (q + 1) z with
    | none =>
      rw [k0, k1, hh]
      have : ∀ m, countRemember heap m none = 0 := by intro m; cases m <;> rfl
      simp only [nz_none, this]
    | some p =>
      obtain ⟨j, hj⟩ := holder_addr hh
      obtain ⟨x, hx⟩ := s.get hj
      have hp := (s.bnd _ _ _ hj).1
      rw [k0, k1, hh, nz_some hx, nz_some hx, countRemember]
      simp only [remember, hp, if_false, hx]
      show _ = countRemember heap k x.n1 + countRemember heap k x.n0
      omega

end

/-- `NumCachedLeaves` counts the flags. -/
theorem PH.numCached_ok {s : Pollard H} {n : ℕ} {A : Addr} {c : ℕ → ℕ → H} (h : PH s n A c) (hn : n ≤ 2 ^ 62) :
    numCachedLeaves s = (List.range n).countP (kidc s.ext (rtOf n) A 0) := by
  have e := sum_trees (kidc s.ext (rtOf n) A 0) n 64
  rw [Nat.div_eq_of_lt (lt_of_le_of_lt hn (Nat.pow_lt_pow_right (by omega) (by omega)))] at e
  simp only [Nat.zero_mul, List.range_zero, List.countP_nil, Nat.add_zero] at e
  rw [← e]
  unfold numCachedLeaves
  apply sum_map_congr
  have : (s.roots.map fun r => countRemember s.ext (s.ext.length + 66) r.e.node) =
      (s.roots.map fun r => r.e.node).map (countRemember s.ext (s.ext.length + 66)) := by
    rw [List.map_map]; rfl
  rw [this, h.roots.node]
  unfold rootCoords
  rw [List.map_map, List.map_map]
  apply List.map_congr_left
  intro t ht
  have he : (t, rootIdx n t) ∈ rootCoords n := List.mem_map.2 ⟨t, ht, rfl⟩
  obtain ⟨h1, h2⟩ := rootCoords_in he
  simp only at h1 h2
  show countRemember s.ext (s.ext.length + 66) (A t (rootIdx n t)) = _
  rw [← countRemember_ok h.shape t (rootIdx n t) (s.ext.length + 66) h1 (by omega), holder_root (mem_rootCoords he)]

theorem PH.numCached_flag {s : Pollard H} {n : ℕ} {A : Addr} {c : ℕ → ℕ → H} (h : PH s n A c) (hn : n ≤ 2 ^ 62) :
    numCachedLeaves s = 0 ↔ ∀ x, x < n → ¬ Flag s.ext (rtOf n) A x := by
  rw [h.numCached_ok hn, List.countP_eq_zero]
  simp only [List.mem_range, kidc]
  rfl

/-- The memory of a pollard. -/
theorem PH.count_le {s : Pollard H} {n : ℕ} {A : Addr} {c : ℕ → ℕ → H} (h : PH s n A c) (hn : n ≤ 2 ^ 62) (hs : Sparse s.ext n A)
    {R : ℕ} (hR : n < 2 ^ (R + 1)) : countNodes s ≤ (rootCoords n).length + 2 * R * numCachedLeaves s := by
  have e := sum_trees (kidc s.ext (rtOf n) A 0) n 64
  rw [Nat.div_eq_of_lt (lt_of_le_of_lt hn (Nat.pow_lt_pow_right (by omega) (by omega)))] at e
  simp only [Nat.zero_mul, List.range_zero, List.countP_nil, Nat.add_zero] at e
  rw [h.countNodes_ok, h.numCached_ok hn, ← e]
  have key : ∀ l : List ℕ, (∀ t ∈ l, (t, rootIdx n t) ∈ rootCoords n) →
      ((l.map fun t => (t, rootIdx n t)).map fun e => cntA n A e.1 e.2).sum ≤ (l.map fun t => (t, rootIdx n t)).length +
        2 * R * (l.map fun t => leavesIn (kidc s.ext (rtOf n) A 0) t (rootIdx n t)).sum := by
    intro l
    induction l with
    | nil => simp
    | cons t l ih =>
      intro hl
      have i1 := ih (fun t ht => hl t (by simp [ht]))
      have he := hl t (by simp)
      obtain ⟨h1, -⟩ := rootCoords_in he
      simp only at h1
      simp only [List.map_cons, List.sum_cons, List.length_cons]
      have e1 := (cntA_eq h.shape t (rootIdx n t) h1).1 (mem_rootCoords he)
      have e2 := objs_le hs t (rootIdx n t) h1
      have ht : t ≤ R := by
        by_contra hc
        have : 2 ^ (R + 1) ≤ 2 ^ t := Nat.pow_le_pow_right (by omega) (by omega)
        rw [Nat.div_eq_of_lt (by omega)] at h1
        omega
      have e3 := Nat.mul_le_mul_right (leavesIn (kidc s.ext (rtOf n) A 0) t (rootIdx n t)) (Nat.mul_le_mul_left 2 ht)
      rw [Nat.mul_add]
      omega
  exact key _ (fun t ht => List.mem_map.2 ⟨t, ht, rfl⟩)

end Pol
end Utreexo
