import Verif.Proof.PolCount

/-!
# The objects that a pollard needs for its remembered leaves, and no others
-/

set_option linter.unusedSectionVars false

namespace Utreexo
open Spec Equiv

variable {H : Type} [DecidableEq H] [HashOps H]

namespace Pol

variable {heap : List (INode H)} {n : ℕ} {A : Addr}

/-- Only roots. -/
theorem tight_bare (h : ∀ r i, rtOf n r i = false → A r i = none) : Tight n A := by
  intro s x hx
  match s, hx with
  | 0, _ => rfl
  | 1, _ => rfl
  | q + 2, hx =>
    have hx' : x < n / 2 ^ (q + 1 + 1) := hx
    have k1 : ∀ y, y / 2 = x → A (q + 1) y = none := fun y hy => h _ _ (kid_rt hx' hy)
    have k0 : ∀ y, y / 2 / 2 = x → A q y = none := fun y hy => h _ _ (kid_rt (kid_in hx' hy) rfl)
    simp only [tcell]
    rw [k1 _ (by omega), k1 _ (by omega), k0 _ (by omega), k0 _ (by omega), k0 _ (by omega), k0 _ (by omega)]
    rfl

theorem Tight.but (h : Tight n A) (D : List ℕ) : TightBut n A D := fun s x hx => .inl (h s x hx)

/-- After an accepted verification of some of the leaves. -/
theorem Accepted.tight {s s' : Pollard H} {f : ℕ → H} {A1 : Addr} {D D' : List ℕ} {hs : List H}
    (ha : Accepted s s' n f A A1 D hs) (hD : ∀ t ∈ D, t ∈ D') (h : TightBut n A D') : TightBut n A1 D' := by
  intro r x hx
  match r, hx with
  | 0, _ => exact .inl rfl
  | 1, _ => exact .inl rfl
  | q + 2, hx =>
    have hx' : x < n / 2 ^ (q + 1 + 1) := hx
    by_cases hd : ∃ t ∈ D', t / 2 ^ (q + 2) = x
    · exact .inr hd
    left
    have same : ∀ r c, r = q ∧ c / 2 / 2 = x ∨ r = q + 1 ∧ c / 2 = x → A1 r c = A r c := by
      intro r c hc
      have hrt : c / 2 < n / 2 ^ (r + 1) := by
        rcases hc with ⟨rfl, hc⟩ | ⟨rfl, hc⟩
        · exact kid_in hx' hc
        · rw [hc]; exact hx'
      cases h0 : A r c with
      | some p => exact ha.ext _ _ _ h0
      | none =>
        cases h1 : A1 r c with
        | none => rfl
        | some p =>
          exfalso
          have hpar := Vn_parent ha.sane (ha.new _ _ _ h1 h0) (kid_rt hrt rfl)
          obtain ⟨-, t, ht, hte⟩ := (mem_Cn ha.sane).1 hpar
          refine hd ⟨t, hD t ht, ?_⟩
          rcases hc with ⟨rfl, hc⟩ | ⟨rfl, hc⟩
          · rw [← hc, ← hte, Nat.div_div_eq_div_mul, ← pow_succ]
          · rw [← hc, ← hte]
    have e : tcell A1 (q + 2) x = tcell A (q + 2) x :=
      tcell_congr (fun b hb => same _ _ (.inr ⟨rfl, by omega⟩)) (fun b hb => same _ _ (.inl ⟨rfl, by omega⟩))
    rw [e]
    exact (h _ _ hx).resolve_right hd

/-- A node above the bottom row is cached exactly if something below its sibling is. -/
theorem Tight.kid (h : Tight n A) {q y : ℕ} (hy : y / 2 < n / 2 ^ (q + 2)) :
    (A (q + 1) y).isSome = kidc heap (rtOf n) A (q + 1) (y ^^^ 1) := by
  have h1 := h (q + 2) (y / 2) hy
  simp only [tcell, Bool.and_eq_true, beq_iff_eq] at h1
  simp only [kidc]
  have hc := xor_one_cases y
  split at hc
  · have h2 := h1.1
    rw [show 2 * (y / 2) = y by omega] at h2
    rw [hc]
    exact h2
  · have h2 := h1.2
    rw [show 2 * (y / 2) + 1 = y by omega, show 2 * (y / 2) = y - 1 by omega] at h2
    rw [hc]
    exact h2

theorem leavesIn_pos (b : ℕ → Bool) : ∀ q z, 0 < leavesIn b q z ↔ ∃ t, t / 2 ^ q = z ∧ b t = true := by
  intro q
  induction q with
  | zero =>
    intro z
    rw [leavesIn]
    simp only [pow_zero, Nat.div_one, exists_eq_left]
    cases b z <;> simp
  | succ q ih =>
    intro z
    rw [leavesIn]
    constructor
    · intro h
      rcases Nat.eq_zero_or_pos (leavesIn b q (2 * z)) with h0 | h0
      · obtain ⟨t, h1, h2⟩ := (ih (2 * z + 1)).1 (by omega)
        exact ⟨t, by rw [pow_succ, ← Nat.div_div_eq_div_mul, h1]; omega, h2⟩
      · obtain ⟨t, h1, h2⟩ := (ih (2 * z)).1 h0
        exact ⟨t, by rw [pow_succ, ← Nat.div_div_eq_div_mul, h1]; omega, h2⟩
    · rintro ⟨t, h1, h2⟩
      rw [pow_succ, ← Nat.div_div_eq_div_mul] at h1
      have : t / 2 ^ q = 2 * z ∨ t / 2 ^ q = 2 * z + 1 := by omega
      rcases this with e | e
      · have := (ih (2 * z)).2 ⟨t, e, h2⟩; omega
      · have := (ih (2 * z + 1)).2 ⟨t, e, h2⟩; omega

theorem Sparse.below (h : Sparse heap n A) {q z : ℕ} (hz : z < n / 2 ^ q) :
    kidc heap (rtOf n) A q z = true ↔ ∃ t, t / 2 ^ q = z ∧ Flag heap (rtOf n) A t := by
  rw [h q z hz, mt_or, leavesIn_pos]
  rfl

/-- Above the bottom row the cached nodes are the siblings of the nodes above remembered leaves. -/
theorem Tight.iff (h : Tight n A) (hs : Sparse heap n A) {r i : ℕ} (hr : 0 < r) (hi : i / 2 < n / 2 ^ (r + 1)) :
    (A r i).isSome ↔ ∃ t, t / 2 ^ r = i ^^^ 1 ∧ Flag heap (rtOf n) A t := by
  obtain ⟨q, rfl⟩ : ∃ q, r = q + 1 := ⟨r - 1, by omega⟩
  rw [h.kid (heap := heap) hi]
  exact hs.below (kid_in hi (sb_div i))

/-- The objects below a node: one for each row and remembered leaf, and perhaps one more in the bottom row. -/
theorem objs_tight (h : Sparse heap n A) (ht : Tight n A) : ∀ q z, z < n / 2 ^ q →
    objsIn A q z ≤ (q + 1) * leavesIn (kidc heap (rtOf n) A 0) q z := by
  intro q
  induction q with
  | zero => intro z _; simp [objsIn]
  | succ q ih =>
    intro z hz
    have h0 := ih (2 * z) (kid_in hz (by omega))
    have h1 := ih (2 * z + 1) (kid_in hz (by omega))
    have hk := h (q + 1) z hz
    rw [objsIn]
    set a := leavesIn (kidc heap (rtOf n) A 0) q (2 * z) with ha
    set b := leavesIn (kidc heap (rtOf n) A 0) q (2 * z + 1) with hb
    have e : (q + 1 + 1) * leavesIn (kidc heap (rtOf n) A 0) (q + 1) z = (q + 1) * a + (q + 1) * b + (a + b) := by
      rw [leavesIn, ← ha, ← hb]; ring
    rw [e]
    clear_value a b
    obtain rfl | ⟨q, rfl⟩ : q = 0 ∨ ∃ q', q = q' + 1 := by
      cases q with
      | zero => exact .inl rfl
      | succ q => exact .inr ⟨q, rfl⟩
    · simp only [objsIn] at h0 h1 ⊢
      by_cases hf : 0 < leavesIn (kidc heap (rtOf n) A 0) (0 + 1) z
      · rw [leavesIn, ← ha, ← hb] at hf
        have i1 : (if (A 0 (2 * z)).isSome then 1 else 0) ≤ 1 := by split <;> omega
        have i2 : (if (A 0 (2 * z + 1)).isSome then 1 else 0) ≤ 1 := by split <;> omega
        omega
      · have hm : ¬ @mt Bool kidOps (kidc heap (rtOf n) A 0) (0 + 1) z = true := by rw [mt_or]; exact hf
        rw [← hk] at hm
        simp only [kidc, Bool.or_eq_true, not_or, Bool.not_eq_true] at hm
        rw [hm.1, hm.2]
        simp
    · have x0 : 2 * z ^^^ 1 = 2 * z + 1 := by rw [xor_one_cases]; split <;> omega
      have x1 : (2 * z + 1) ^^^ 1 = 2 * z := by rw [xor_one_cases]; split <;> omega
      have t0 := ht.kid (heap := heap) (q := q) (y := 2 * z) (by rw [show 2 * z / 2 = z by omega]; exact hz)
      have t1 := ht.kid (heap := heap) (q := q) (y := 2 * z + 1) (by rw [show (2 * z + 1) / 2 = z by omega]; exact hz)
      rw [x0, h _ _ (kid_in hz (by omega))] at t0
      rw [x1, h _ _ (kid_in hz (by omega))] at t1
      have i1 : (if (A (q + 1) (2 * z)).isSome then 1 else 0) ≤ b := by
        split
        · next hh => rw [t0] at hh; rw [hb]; exact (mt_or _ _ _).1 hh
        · omega
      have i2 : (if (A (q + 1) (2 * z + 1)).isSome then 1 else 0) ≤ a := by
        split
        · next hh => rw [t1] at hh; rw [ha]; exact (mt_or _ _ _).1 hh
        · omega
      omega

/-- The memory of a pollard without superfluous objects. -/
theorem PH.count_tight {s : Pollard H} {c : ℕ → ℕ → H} (h : PH s n A c) (hn : n ≤ 2 ^ 62) (hs : Sparse s.ext n A)
    (hT : Tight n A) {R : ℕ} (hR : n < 2 ^ (R + 1)) : countNodes s ≤ (rootCoords n).length + (R + 1) * numCachedLeaves s := by
  have e := sum_trees (kidc s.ext (rtOf n) A 0) n 64
  rw [Nat.div_eq_of_lt (lt_of_le_of_lt hn (Nat.pow_lt_pow_right (by omega) (by omega)))] at e
  simp only [Nat.zero_mul, List.range_zero, List.countP_nil, Nat.add_zero] at e
  rw [h.countNodes_ok, h.numCached_ok hn, ← e]
  have key : ∀ l : List ℕ, (∀ t ∈ l, (t, rootIdx n t) ∈ rootCoords n) →
      ((l.map fun t => (t, rootIdx n t)).map fun e => cntA n A e.1 e.2).sum ≤ (l.map fun t => (t, rootIdx n t)).length +
        (R + 1) * (l.map fun t => leavesIn (kidc s.ext (rtOf n) A 0) t (rootIdx n t)).sum := by
    intro l
    induction l with
    | nil => simp
    | cons t l ih =>
      intro hl
      have i1 := ih (fun t ht => hl t (by simp [ht]))
      have he := hl t (by simp)
      obtain ⟨h1, -⟩ := rootCoords_in he
      simp only at h1
      simp only [List.map_cons, List.sum_cons, List.length_cons]
      have e1 := (cntA_eq h.shape t (rootIdx n t) h1).1 (mem_rootCoords he)
      have e2 := objs_tight hs hT t (rootIdx n t) h1
      have ht : t ≤ R := by
        by_contra hc
        have : 2 ^ (R + 1) ≤ 2 ^ t := Nat.pow_le_pow_right (by omega) (by omega)
        rw [Nat.div_eq_of_lt (by omega)] at h1
        omega
      have e3 := Nat.mul_le_mul_right (leavesIn (kidc s.ext (rtOf n) A 0) t (rootIdx n t)) (show t + 1 ≤ R + 1 by omega)
      rw [Nat.mul_add]
      omega
  exact key _ (fun t ht => List.mem_map.2 ⟨t, ht, rfl⟩)

/-! ## The number of objects -/

theorem sum_both {α : Type} (f g : α → ℕ) (l : List α) : (l.map fun a => f a + g a).sum = (l.map f).sum + (l.map g).sum := by
  induction l with
  | nil => rfl
  | cons a l ih =>
    simp only [List.map_cons, List.sum_cons]
    omega

theorem objs_rows (A : Addr) : ∀ q z,
    objsIn A q z = ((List.range q).map fun r => leavesIn (fun i => (A r i).isSome) (q - r) z).sum := by
  intro q
  induction q with
  | zero => intro z; rfl
  | succ q ih =>
    intro z
    rw [objsIn, ih, ih, List.range_succ, List.map_append, List.sum_append]
    have e : ((List.range q).map fun r => leavesIn (fun i => (A r i).isSome) (q + 1 - r) z) =
        (List.range q).map fun r => leavesIn (fun i => (A r i).isSome) (q - r) (2 * z) + leavesIn (fun i => (A r i).isSome) (q - r) (2 * z + 1) := by
      apply List.map_congr_left
      intro r hr
      rw [List.mem_range] at hr
      rw [show q + 1 - r = (q - r) + 1 by omega, leavesIn]
    rw [e, sum_both]
    simp only [List.map_cons, List.map_nil, List.sum_cons, List.sum_nil, Nat.add_sub_cancel_left, leavesIn]
    cases (A q (2 * z)).isSome <;> cases (A q (2 * z + 1)).isSome <;> simp <;> omega

theorem tree_rows (A : Addr) {q z : ℕ} (h : (A q z).isSome) :
    1 + objsIn A q z = ((List.range (q + 1)).map fun r => leavesIn (fun i => (A r i).isSome) (q - r) z).sum := by
  rw [List.range_succ, List.map_append, List.sum_append, objs_rows]
  simp only [List.map_cons, List.map_nil, List.sum_cons, List.sum_nil, Nat.sub_self, leavesIn, h]
  simp only [Bool.toNat_true]
  omega

/-- The trees of the forest contain the nodes of each row. -/
theorem sum_row (b : ℕ → Bool) (n r : ℕ) : ∀ k, ((treeRows n (r + k)).map fun t => if r ≤ t then leavesIn b (t - r) (rootIdx n t) else 0).sum +
    (List.range (n / 2 ^ (r + k) * 2 ^ k)).countP b = (List.range (n / 2 ^ r)).countP b := by
  intro k
  induction k with
  | zero =>
    have : ∀ j, j ≤ r → ((treeRows n j).map fun t => if r ≤ t then leavesIn b (t - r) (rootIdx n t) else 0).sum = 0 := by
      intro j
      induction j with
      | zero => intro _; simp [treeRows]
      | succ j ih =>
        intro hj
        rw [treeRows]
        split
        · rw [List.map_cons, List.sum_cons, if_neg (by omega), ih (by omega)]
        · exact ih (by omega)
    rw [Nat.add_zero, this _ le_rfl]
    simp
  | succ k ih =>
    rw [← ih, ← Nat.add_assoc, treeRows]
    have hd : n / 2 ^ (r + k + 1) = n / 2 ^ (r + k) / 2 := by rw [pow_succ, Nat.div_div_eq_div_mul]
    have hb : n.testBit (r + k) = decide (n / 2 ^ (r + k) % 2 = 1) := by rw [Nat.testBit_eq_decide_div_mod_eq]
    rw [hb]
    split
    · next h =>
      simp only [decide_eq_true_eq] at h
      rw [List.map_cons, List.sum_cons, if_pos (by omega), Nat.add_sub_cancel_left, leavesIn_eq b k]
      have e : n / 2 ^ (r + k) * 2 ^ k = n / 2 ^ (r + k + 1) * 2 ^ (k + 1) + 2 ^ k := by
        have : n / 2 ^ (r + k) = 2 * (n / 2 ^ (r + k + 1)) + 1 := by omega
        rw [this, pow_succ]; ring
      rw [e, List.range_eq_range', List.range_eq_range', ← List.range'_append_1 (s := 0), List.countP_append]
      unfold rootIdx
      rw [show 0 + n / 2 ^ (r + k + 1) * 2 ^ (k + 1) = n / 2 ^ (r + k + 1) * 2 * 2 ^ k by rw [pow_succ]; ring]
      omega
    · next h =>
      simp only [decide_eq_true_eq] at h
      have e : n / 2 ^ (r + k + 1) * 2 ^ (k + 1) = n / 2 ^ (r + k) * 2 ^ k := by
        have : n / 2 ^ (r + k) = 2 * (n / 2 ^ (r + k + 1)) := by omega
        rw [this, pow_succ]; ring
      rw [e]

theorem sum_swap {α β : Type} (f : α → β → ℕ) (l : List α) (m : List β) :
    (l.map fun a => (m.map fun b => f a b).sum).sum = (m.map fun b => (l.map fun a => f a b).sum).sum := by
  induction l with
  | nil => simp
  | cons a l ih =>
    simp only [List.map_cons, List.sum_cons]
    rw [ih, ← sum_both]

theorem sum_cut (g : ℕ → ℕ) : ∀ m k, k ≤ m → ((List.range m).map fun r => if r < k then g r else 0).sum = ((List.range k).map g).sum := by
  intro m
  induction m with
  | zero => intro k hk; obtain rfl : k = 0 := by omega
            rfl
  | succ m ih =>
    intro k hk
    rcases Nat.lt_or_ge k (m + 1) with h | h
    · rw [List.range_succ, List.map_append, List.sum_append, ih k (by omega)]
      simp only [List.map_cons, List.map_nil, List.sum_cons, List.sum_nil]
      rw [if_neg (by omega)]
      rfl
    · obtain rfl : k = m + 1 := by omega
      congr 1
      apply List.map_congr_left
      intro r hr
      rw [if_pos (List.mem_range.1 hr)]

theorem sum_forest (A : Addr) (K : ℕ) (hK : n / 2 ^ K = 0) (l : List ℕ) (hl : l = treeRows n K) (hlt : ∀ t ∈ l, t < K)
    (hA : ∀ t ∈ l, (A t (rootIdx n t)).isSome) : (l.map fun t => 1 + objsIn A t (rootIdx n t)).sum =
      ((List.range K).map fun r => (List.range (n / 2 ^ r)).countP fun i => (A r i).isSome).sum := by
  have e' : ((List.range K).map fun r => (List.range (n / 2 ^ r)).countP fun i => (A r i).isSome) =
      (List.range K).map fun r => (l.map fun t =>
        if r < t + 1 then leavesIn (fun i => (A r i).isSome) (t - r) (rootIdx n t) else 0).sum := by
    apply List.map_congr_left
    intro r hr
    rw [List.mem_range] at hr
    have := sum_row (fun i => (A r i).isSome) n r (K - r)
    rw [show r + (K - r) = K by omega, hK] at this
    simp only [Nat.zero_mul, List.range_zero, List.countP_nil, Nat.add_zero] at this
    rw [← this, ← hl]
    congr 1
    apply List.map_congr_left
    intro t _
    by_cases hh : r ≤ t
    · rw [if_pos hh, if_pos (by omega)]
    · rw [if_neg hh, if_neg (by omega)]
  rw [e', ← sum_swap (fun t r => if r < t + 1 then leavesIn (fun i => (A r i).isSome) (t - r) (rootIdx n t) else 0)]
  congr 1
  apply List.map_congr_left
  intro t ht
  rw [tree_rows A (hA t ht), ← sum_cut _ K (t + 1) (hlt t ht)]

/-- `CountNodes` counts the objects that have an address. -/
theorem PH.count_eq {s : Pollard H} {c : ℕ → ℕ → H} (h : PH s n A c) (hn : n ≤ 2 ^ 62) :
    countNodes s = ((List.range 64).map fun r => (List.range (n / 2 ^ r)).countP fun i => (A r i).isSome).sum := by
  have hc : ∀ t ∈ treeRows n 64, (t, rootIdx n t) ∈ rootCoords n := fun t ht => List.mem_map.2 ⟨t, ht, rfl⟩
  have h64 : ∀ t, 64 ≤ t → n / 2 ^ t = 0 := fun t ht =>
    Nat.div_eq_of_lt (lt_of_le_of_lt hn (Nat.pow_lt_pow_right (by omega) (by omega)))
  rw [h.countNodes_ok, ← sum_forest A 64 (h64 64 le_rfl) (treeRows n 64) rfl]
  · unfold rootCoords
    rw [List.map_map]
    congr 1
    apply List.map_congr_left
    intro t ht
    exact (cntA_eq h.shape t (rootIdx n t) (rootCoords_in (hc t ht)).1).1 (mem_rootCoords (hc t ht))
  · intro t ht
    have h1 := (rootCoords_in (hc t ht)).1
    simp only at h1
    by_contra hh
    rw [h64 t (by omega)] at h1
    omega
  · exact fun t ht => h.shape.root _ _ (mem_rootCoords (hc t ht))

end Pol
end Utreexo
