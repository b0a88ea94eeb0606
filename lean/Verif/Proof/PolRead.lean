import Verif.Proof.PolPrune

/-! # Reading from a pollard -/

set_option linter.unusedSectionVars false

namespace Utreexo
open Spec Equiv

variable {H : Type} [DecidableEq H] [HashOps H]

namespace Pol

/-- The roots of a forest with `n` leaves. -/
def rtOf (n : ℕ) : ℕ → ℕ → Bool := fun r i => n.testBit r && (i == rootIdx n r)

theorem rtOf_true {n r i : ℕ} : rtOf n r i = true ↔ n.testBit r = true ∧ i = rootIdx n r := by
  unfold rtOf; simp

/-- A node of the forest is a root iff it has no parent in the forest. -/
theorem rtOf_iff {n r i : ℕ} (h : i < n / 2 ^ r) : rtOf n r i = true ↔ ¬ i / 2 < n / 2 ^ (r + 1) := by
  rw [rtOf_true, rootIdx_le]
  have h1 := testBit_div (n := n) (t := r)
  constructor
  · rintro ⟨-, h2⟩; omega
  · intro h2
    by_cases hb : n.testBit r = true
    · rw [if_pos hb] at h1
      exact ⟨hb, by omega⟩
    · rw [if_neg hb] at h1
      omega

theorem rtOf_false {n r i : ℕ} (h : i / 2 < n / 2 ^ (r + 1)) : rtOf n r i = false := by
  by_contra hc
  simp only [Bool.not_eq_false] at hc
  rw [rtOf_true, rootIdx_le] at hc
  omega

theorem rtOf_in {n r i : ℕ} (h : rtOf n r i = true) : i < n / 2 ^ r := by
  rw [rtOf_true] at h
  rw [h.2]; exact Ram.root_in h.1

/-- Pointers follow the nieces from row `r` on. -/
def KidsFrom (heap : List (INode H)) (rt : ℕ → ℕ → Bool) (A : Addr) (r : ℕ) : Prop :=
  ∀ q y, r ≤ q → rt q y = false → A q y = nz heap (holder rt A (q + 1) (y / 2)) (y % 2)

/-- The path entry of a node. -/
def pentry (R : ℕ) (rt : ℕ → ℕ → Bool) (A : Addr) (q y : ℕ) : PEntry :=
  ⟨A q y, holder rt A q y, posOf R q y⟩

/-- Path entries from node `y` of row `q` upwards. -/
def upPath (R : ℕ) (rt : ℕ → ℕ → Bool) (A : Addr) : ℕ → ℕ → ℕ → List PEntry
  | 0, _, _ => []
  | k + 1, q, y => pentry R rt A q y :: upPath R rt A k (q + 1) (y / 2)

theorem div_div_two (i k : ℕ) : i / 2 ^ k / 2 = i / 2 ^ (k + 1) := by
  rw [Nat.div_div_eq_div_mul, ← pow_succ]

theorem div_succ_row {n r : ℕ} : n / 2 ^ (r + 1) = n / 2 ^ r / 2 := by rw [div_div_two]

theorem readLoop_ok {heap : List (INode H)} {n : ℕ} {A : Addr} (hn : n ≤ 2 ^ 62) {r i bits t : ℕ}
    (hk : KidsFrom heap (rtOf n) A r) (hb : ∀ q y p, A q y = some p → p < heap.length)
    (hi : ∀ q, r < q → q ≤ t → i / 2 ^ (q - r) < n / 2 ^ q)
    (hbits : ∀ j, j < t - r → bits.testBit j = !i.testBit j) (ht : t ≤ St.numRows n) :
    ∀ k, r + k ≤ t → 0 < k → ∃ path, readLoop heap n bits k (A (r + k) (i / 2 ^ k)) (holder (rtOf n) A (r + k) (i / 2 ^ k))
        (posOf (St.numRows n) (r + k) (i / 2 ^ k)) (upPath (St.numRows n) (rtOf n) A (t - (r + k)) (r + k + 1) (i / 2 ^ (k + 1))) =
      .ok (A r i, holder (rtOf n) A r i, path) ∧
      ((∀ q, r < q → q ≤ t → (holder (rtOf n) A q (i / 2 ^ (q - r))).isSome) →
        path = upPath (St.numRows n) (rtOf n) A (t - r) (r + 1) (i / 2)) := by
  have hR := numRows_le_62 hn
  -- nothing is cached below a missing holder
  have hdown : ∀ k, r + k ≤ t → holder (rtOf n) A (r + k) (i / 2 ^ k) = none → 0 < k →
      A r i = none ∧ holder (rtOf n) A r i = none := by
    intro k
    induction k with
    | zero => intro _ _ h; omega
    | succ k ih =>
      intro h1 h2 _
      have hin := hi (r + (k + 1)) (by omega) h1
      rw [show r + (k + 1) - r = k + 1 by omega] at hin
      have e1 : i / 2 ^ k / 2 = i / 2 ^ (k + 1) := div_div_two i k
      have f1 : rtOf n (r + k) (i / 2 ^ k) = false := rtOf_false (by rw [e1]; exact hin)
      have f2 : rtOf n (r + k) (i / 2 ^ k ^^^ 1) = false := rtOf_false (by rw [sb_div, e1]; exact hin)
      have a1 : A (r + k) (i / 2 ^ k) = none := by
        rw [hk _ _ (by omega) f1, e1, show r + k + 1 = r + (k + 1) by omega, h2]; rfl
      have a2 : A (r + k) (i / 2 ^ k ^^^ 1) = none := by
        rw [hk _ _ (by omega) f2, sb_div, e1, show r + k + 1 = r + (k + 1) by omega, h2]; rfl
      have a3 : holder (rtOf n) A (r + k) (i / 2 ^ k) = none := by rw [holder_sib f1 f2, a2]
      rcases Nat.eq_zero_or_pos k with h0 | h0
      · subst h0
        simp only [pow_zero, Nat.div_one, add_zero] at a1 a3
        exact ⟨a1, a3⟩
      · exact ih (by omega) a3 h0
  intro k
  induction k with
  | zero => intro _ h; omega
  | succ k ih =>
    intro h1 _
    have hin := hi (r + (k + 1)) (by omega) h1
    rw [show r + (k + 1) - r = k + 1 by omega] at hin
    have e1 : i / 2 ^ k / 2 = i / 2 ^ (k + 1) := div_div_two i k
    have f1 : rtOf n (r + k) (i / 2 ^ k) = false := rtOf_false (by rw [e1]; exact hin)
    have f2 : rtOf n (r + k) (i / 2 ^ k ^^^ 1) = false := rtOf_false (by rw [sb_div, e1]; exact hin)
    obtain ⟨r1, i1⟩ := row_le hn hin
    -- the bit
    have hbit : bits / 2 ^ k % 2 = 1 - i / 2 ^ k % 2 := by
      have := hbits k (by omega)
      rw [Nat.testBit_eq_decide_div_mod_eq, Nat.testBit_eq_decide_div_mod_eq] at this
      have g1 := Nat.mod_two_eq_zero_or_one (bits / 2 ^ k)
      have g2 := Nat.mod_two_eq_zero_or_one (i / 2 ^ k)
      rcases g1 with g1 | g1 <;> rcases g2 with g2 | g2 <;> simp [g1, g2] at this ⊢
    have hsib : St.sibling (bits / 2 ^ k % 2) = i / 2 ^ k % 2 := by
      rw [hbit]; unfold St.sibling
      rcases Nat.mod_two_eq_zero_or_one (i / 2 ^ k) with h | h <;> rw [h] <;> rfl
    rw [readLoop, shr64_ok (by omega), ok_bind]
    have hpath : pentry (St.numRows n) (rtOf n) A (r + (k + 1)) (i / 2 ^ (k + 1)) ::
        upPath (St.numRows n) (rtOf n) A (t - (r + (k + 1))) (r + (k + 1) + 1) (i / 2 ^ (k + 1 + 1)) =
        upPath (St.numRows n) (rtOf n) A (t - (r + k)) (r + k + 1) (i / 2 ^ (k + 1)) := by
      rw [show t - (r + k) = t - (r + (k + 1)) + 1 by omega, upPath, div_div_two, show r + k + 1 = r + (k + 1) by omega]
    unfold pentry at hpath
    rw [hpath]
    simp only [hsib]
    cases hh : holder (rtOf n) A (r + (k + 1)) (i / 2 ^ (k + 1)) with
    | none =>
      simp only
      obtain ⟨a1, a2⟩ := hdown (k + 1) h1 hh (by omega)
      rw [a1, a2]
      refine ⟨_, rfl, fun hall => ?_⟩
      have := hall (r + (k + 1)) (by omega) h1
      rw [show r + (k + 1) - r = k + 1 by omega, hh] at this
      simp at this
    | some sp =>
      simp only
      obtain ⟨j, hj⟩ := holder_addr hh
      obtain ⟨x, hg⟩ : ∃ x, heap[sp]? = some x := ⟨_, List.getElem?_eq_getElem (hb _ _ _ hj)⟩
      have hi' : i / 2 ^ (k + 1) < 2 ^ (St.numRows n - (r + k)) :=
        lt_of_lt_of_le i1 (Nat.pow_le_pow_right (by omega) (by omega))
      rw [vecGet_ok hg, ok_bind, show posOf (St.numRows n) (r + (k + 1)) = posOf (St.numRows n) (r + k + 1) from rfl,
        child_posOf (by omega) (by omega) hi' (by omega : i / 2 ^ k % 2 < 2), ok_bind, ← e1,
        show 2 * (i / 2 ^ k / 2) + i / 2 ^ k % 2 = i / 2 ^ k by omega, ← nz_some hg, ← nz_some hg, hbit]
      have a1 : nz heap (some sp) (i / 2 ^ k % 2) = A (r + k) (i / 2 ^ k) := by
        rw [hk _ _ (by omega) f1, e1, show r + k + 1 = r + (k + 1) by omega, hh]
      have a2 : nz heap (some sp) (1 - i / 2 ^ k % 2) = holder (rtOf n) A (r + k) (i / 2 ^ k) := by
        rw [holder_sib f1 f2, hk _ _ (by omega) f2, sb_div, e1, show r + k + 1 = r + (k + 1) by omega, hh]
        congr 1
        rw [xor_one_cases]; split <;> omega
      rw [a1, a2]
      rcases Nat.eq_zero_or_pos k with h0 | h0
      · subst h0
        simp only [pow_zero, Nat.div_one, add_zero]
        exact ⟨_, rfl, fun _ => rfl⟩
      · have := ih (by omega) h0
        rw [← e1] at this
        exact this

/-- The roots are the objects of the given nodes. -/
structure RootsAt (roots : List PNode) (A : Addr) (cs : List (ℕ × ℕ)) : Prop where
  node : roots.map (fun r => r.e.node) = cs.map fun c => A c.1 c.2
  sib : roots.map (fun r => r.e.sib) = cs.map fun c => A c.1 c.2
  up : ∀ r ∈ roots, r.up = []

/-- Row and index of the roots of a forest, tallest first. -/
def rootCoords (n : ℕ) : List (ℕ × ℕ) := (treeRows n 64).map fun t => (t, rootIdx n t)

theorem RootsAt.get {roots : List PNode} {A : Addr} {cs : List (ℕ × ℕ)} (h : RootsAt roots A cs) {k r i : ℕ}
    (hc : cs[k]? = some (r, i)) : ∃ x, roots[k]? = some x ∧ x.e.node = A r i ∧ x.e.sib = A r i := by
  have h1 := congrArg (·[k]?) h.node
  have h2 := congrArg (·[k]?) h.sib
  simp only [List.getElem?_map, hc, Option.map_some] at h1 h2
  cases hx : roots[k]? with
  | none => rw [hx] at h1; simp at h1
  | some x =>
    rw [hx] at h1 h2
    simp only [Option.map_some, Option.some.injEq] at h1 h2
    exact ⟨x, rfl, h1, h2⟩

/-- The rows above a node inside its tree. -/
theorem anc_in {n t r i : ℕ} (h : InTree n t (i * 2 ^ r)) {q : ℕ} (hq : r ≤ q) (hqt : q ≤ t) :
    i / 2 ^ (q - r) < n / 2 ^ q := by
  have h1 := treeStart_add_le h.1
  have h2 := h.2.2
  have e : i / 2 ^ (q - r) = i * 2 ^ r / 2 ^ q := by
    rw [show (2:ℕ) ^ q = 2 ^ r * 2 ^ (q - r) by rw [← pow_add]; congr 1; omega, ← Nat.div_div_eq_div_mul,
      Nat.mul_div_cancel _ (Nat.two_pow_pos r)]
  rw [e]
  -- the whole block lies in the tree
  have h3 : (i * 2 ^ r / 2 ^ q + 1) * 2 ^ q ≤ treeStart n t + 2 ^ t := by
    rw [← rootIdx_mul]
    have : rootIdx n t * 2 ^ t + 2 ^ t = (rootIdx n t + 1) * 2 ^ (t - q) * 2 ^ q := by
      rw [mul_assoc, ← pow_add, show t - q + q = t by omega]; ring
    rw [this]
    apply Nat.mul_le_mul_right
    apply Nat.succ_le_of_lt
    rw [Nat.div_lt_iff_lt_mul (by positivity), ← this, rootIdx_mul]
    exact h2
  rw [← Nat.succ_le_iff, Nat.le_div_iff_mul_le (by positivity)]
  exact le_trans h3 h1

theorem inTree_root {n t r i : ℕ} (h : InTree n t (i * 2 ^ r)) (hr : r ≤ t) : i / 2 ^ (t - r) = rootIdx n t := by
  have e : i / 2 ^ (t - r) = i * 2 ^ r / 2 ^ t := by
    rw [show (2:ℕ) ^ t = 2 ^ r * 2 ^ (t - r) by rw [← pow_add]; congr 1; omega, ← Nat.div_div_eq_div_mul,
      Nat.mul_div_cancel _ (Nat.two_pow_pos r)]
  rw [e]
  have h2 := h.2
  rw [← rootIdx_mul] at h2
  rw [Nat.div_eq_iff (by positivity)]
  have : 0 < 2 ^ t := by positivity
  omega

/-- Reading finds the object of a node and the one holding its children; the recorded path is right
when it is complete. -/
theorem readSiblings_ok {s : Pollard H} {n : ℕ} {A : Addr} (hs : s.numLeaves = n) (hn : n ≤ 2 ^ 62)
    {r i : ℕ} (hk : KidsFrom s.ext (rtOf n) A r) (hb : ∀ q y p, A q y = some p → p < s.ext.length)
    (hr : RootsAt s.roots A (rootCoords n)) (hi : i < n / 2 ^ r) :
    ∃ t path, r ≤ t ∧ InTree n t (i * 2 ^ r) ∧
      readSiblings s (posOf (St.numRows n) r i) = .ok (A r i, holder (rtOf n) A r i, path) ∧
      ((∀ q, r < q → q ≤ t → (holder (rtOf n) A q (i / 2 ^ (q - r))).isSome) →
        path = upPath (St.numRows n) (rtOf n) A (t - r) (r + 1) (i / 2)) := by
  subst hs
  set n := s.numLeaves with hn_def
  obtain ⟨t, tree, bits, h1, h2, h3, h4, h5⟩ := path_eq (by omega) (inForest_iff.2 hi)
  have hroot := inTree_root h2 h1
  have htl : t ≤ St.numRows n := by
    have := anc_in h2 h1 le_rfl
    exact (row_le hn this).1
  rw [Ram.treeRows_eq hn le_rfl] at h3
  have hc : (rootCoords n)[tree]? = some (t, rootIdx n t) := by
    unfold rootCoords; rw [List.getElem?_map, h3]; rfl
  obtain ⟨x, hx, hx1, hx2⟩ := hr.get hc
  have hps : ((treeRows n (St.numRows n + 1)).map fun t => posOf (St.numRows n) t (rootIdx n t))[tree]? =
      some (posOf (St.numRows n) t (rootIdx n t)) := by
    rw [Ram.treeRows_eq hn le_rfl, List.getElem?_map, h3]; rfl
  have hrtt : rtOf n t (rootIdx n t) = true := rtOf_true.2 ⟨h2.1, rfl⟩
  have hred : readSiblings s (posOf (St.numRows n) r i) =
      if t - r = 0 then .ok (x.e.node, x.e.node, [])
      else readLoop s.ext n bits (t - r) x.e.node x.e.node (posOf (St.numRows n) t (rootIdx n t)) [] := by
    unfold readSiblings
    rw [h5, ok_bind]
    simp only
    rw [rootPositions_eq hn, ok_bind, vecGet_ok hps, ok_bind, vecGet_ok hx, ok_bind]
    rfl
  by_cases h0 : t - r = 0
  · have : t = r := by omega
    subst this
    rw [Nat.sub_self, pow_zero, Nat.div_one] at hroot
    refine ⟨t, [], le_rfl, h2, ?_, fun _ => by rw [Nat.sub_self]; rfl⟩
    rw [hred, if_pos h0, hx1, hroot, holder_root hrtt]
  · obtain ⟨path, g1, g2⟩ := readLoop_ok (t := t) hn hk hb (fun q hq hqt => anc_in h2 (by omega) hqt) h4 htl (t - r)
      (by omega) (by omega)
    refine ⟨t, path, h1, h2, ?_, g2⟩
    rw [hred, if_neg h0]
    have e : r + (t - r) = t := by omega
    rw [e, hroot, Nat.sub_self, holder_root hrtt] at g1
    rw [hx1]
    exact g1

end Pol
end Utreexo
