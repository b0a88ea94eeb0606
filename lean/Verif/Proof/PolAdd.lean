import Verif.Proof.PolFinal
import Verif.Proof.RamAdd

/-! # `Pollard::Modify`: adding leaves -/

set_option linter.unusedSectionVars false

namespace Utreexo
open Spec Equiv

variable {H : Type} [DecidableEq H] [HashOps H]

namespace Pol

/-- The roots while the new leaf is merged: the trees of height at least `k` and the new tree. -/
def midRt (n k : ℕ) : ℕ → ℕ → Bool := fun r i => (decide (k ≤ r) && rtOf n r i) || (decide (r = k) && decide (i = n / 2 ^ k))

theorem midRt_new (n k : ℕ) : midRt n k k (n / 2 ^ k) = true := by unfold midRt; simp

theorem midRt_old {n k r i : ℕ} (h : k ≤ r) (h' : rtOf n r i = true) : midRt n k r i = true := by
  unfold midRt; simp [h, h']

theorem midRt_start (n : ℕ) : midRt n 0 = fun r y => if r = 0 ∧ y = n then true else rtOf n r y := by
  funext r y
  unfold midRt
  by_cases h : r = 0 ∧ y = n
  · rw [if_pos h]; simp [h.1, h.2]
  · rw [if_neg h]
    have : (decide (r = 0) && decide (y = n / 2 ^ 0)) = false := by
      rw [pow_zero, Nat.div_one, Bool.and_eq_false_iff]
      simp; tauto
    rw [this]; simp

theorem midRt_merge {n k : ℕ} (hb : n.testBit k = true) : mergeRt (midRt n k) k (n / 2 ^ (k + 1)) = midRt n (k + 1) := by
  have hsplit := testBit_div (n := n) (t := k)
  rw [if_pos hb] at hsplit
  funext r x
  unfold mergeRt
  by_cases h1 : r = k ∧ x / 2 = n / 2 ^ (k + 1)
  · rw [if_pos h1]
    unfold midRt
    simp [h1.1]
  · rw [if_neg h1]
    by_cases h2 : r = k + 1 ∧ x = n / 2 ^ (k + 1)
    · rw [if_pos h2]
      unfold midRt
      simp [h2.1, h2.2]
    · rw [if_neg h2]
      rw [Bool.eq_iff_iff]
      unfold midRt
      simp only [Bool.or_eq_true, Bool.and_eq_true, decide_eq_true_eq]
      constructor
      · rintro (⟨g1, g2⟩ | ⟨g1, g2⟩)
        · left
          refine ⟨?_, g2⟩
          rcases Nat.lt_or_eq_of_le g1 with g | g
          · exact g
          · exfalso
            obtain ⟨-, g3⟩ := rtOf_true.1 g2
            subst g
            rw [rootIdx_le] at g3
            exact h1 ⟨rfl, by omega⟩
        · exfalso
          exact h1 ⟨g1, by omega⟩
      · rintro (⟨g1, g2⟩ | ⟨g1, g2⟩)
        · exact .inl ⟨by omega, g2⟩
        · exact absurd ⟨g1, g2⟩ h2

theorem midRt_end {n t : ℕ} (hbits : ∀ p, p < t → n.testBit p = true) (hz : n.testBit t = false) :
    midRt n t = rtOf (n + 1) := by
  have hsplit := testBit_div (n := n) (t := t)
  rw [hz] at hsplit
  simp only [Bool.false_eq_true, if_false] at hsplit
  have hs : ∀ {q}, t < q → (n + 1) / 2 ^ q = n / 2 ^ q := fun h => succ_div_above hbits hz h
  funext r x
  rw [Bool.eq_iff_iff, rtOf_true, succ_testBit hbits hz]
  unfold midRt
  simp only [Bool.or_eq_true, Bool.and_eq_true, decide_eq_true_eq, rtOf_true]
  constructor
  · rintro (⟨g1, g2, g3⟩ | ⟨rfl, g2⟩)
    · have hr : t < r := by
        rcases Nat.lt_or_eq_of_le g1 with g | g
        · exact g
        · subst g; rw [hz] at g2; simp at g2
      rw [if_neg (by omega), if_neg (by omega)]
      refine ⟨g2, ?_⟩
      rw [g3, rootIdx_le, rootIdx_le, hs (by omega)]
    · simp only [lt_irrefl, if_false, if_true, true_and]
      rw [rootIdx_le, hs (by omega)]; omega
  · rintro ⟨g1, g2⟩
    split at g1
    · simp at g1
    · split at g1
      · rename_i e
        subst e
        right
        rw [rootIdx_le, hs (by omega)] at g2
        exact ⟨rfl, by omega⟩
      · left
        refine ⟨by omega, g1, ?_⟩
        rw [g2, rootIdx_le, rootIdx_le, hs (by omega)]

/-- The roots before row `k`. -/
def midCoords (n k : ℕ) : List (ℕ × ℕ) := ((rowsFrom n k).map fun t => (t, rootIdx n t)) ++ [(k, n / 2 ^ k)]

theorem midRt_low {n k i : ℕ} : midRt n (k + 1) 0 i = false := by unfold midRt; simp

theorem midRt_low' {n k q i : ℕ} (h : q < k) : midRt n k q i = false := by
  unfold midRt
  have h1 : ¬ k ≤ q := by omega
  have h2 : q ≠ k := by omega
  simp [h1, h2]

/-- Without roots in the lowest row the sibling holds the flag. -/
theorem holder_low {rt : ℕ → ℕ → Bool} {A : Addr} {i : ℕ} (h : ∀ j, rt 0 j = false) : holder rt A 0 i = A 0 (i ^^^ 1) := by
  unfold holder
  rw [h, h]; simp

/-- The state inside the merge loop of `Add` before row `k`. -/
structure Merging (s : Pollard H) (n : ℕ) (f : ℕ → H) (A : Addr) (k : ℕ) : Prop where
  num : s.numLeaves = n
  shape : Shape s.ext (midRt n k) A
  hashed : Hashed s.ext A (mt f)
  roots : RootsAt s.roots A (midCoords n k)
  low : ∀ r y, r ≤ k → ¬ y < (n + 1) / 2 ^ r → A r y = none
  high : ∀ r y, k < r → ¬ y < n / 2 ^ r → A r y = none

theorem keep_some {heap : List (INode H)} {o : Option ℕ} {p : ℕ} (h : keep heap o = some p) : o = some p := by
  unfold keep at h
  split at h
  · simp at h
  · exact h

theorem pruneAddr_some {heap : List (INode H)} {q x r y p : ℕ} {A : Addr} (h : pruneAddr heap q x A r y = some p) :
    A r y = some p := by
  unfold pruneAddr at h
  split at h
  · rename_i e; rw [← e.1] at h; exact keep_some h
  · exact h

theorem pruneAddr_none {heap : List (INode H)} {q x r y : ℕ} {A : Addr} (h : A r y = none) :
    pruneAddr heap q x A r y = none := by
  cases hp : pruneAddr heap q x A r y with
  | none => rfl
  | some p => rw [pruneAddr_some hp] at h; simp at h

theorem nz_at {heap : List (INode H)} {t : ℕ} {x : INode H} (h : heap[t]? = some x) (b : ℕ) :
    nz heap (some t) b = INode.niece x b := nz_some h b

/-- The nodes below the roots while leaf `n` is being added and has been merged up to row `k`. -/
def Mid (n k q x : ℕ) : Prop := if q ≤ k then x < (n + 1) / 2 ^ q else x < n / 2 ^ q

/-- As `Sparse`, while a leaf is being added. -/
def SparseM (heap : List (INode H)) (n k : ℕ) (A : Addr) : Prop :=
  ∀ q x, Mid n k q x → kidc heap (midRt n k) A q x = @mt Bool kidOps (kidc heap (midRt n k) A 0) q x

/-- As `Tight`, while a leaf is being added. -/
def TightM (n k : ℕ) (A : Addr) : Prop := ∀ q x, Mid n k q x → tcell A q x = true

/-- The new root pointing to the two old ones. -/
def pairNode (h : H) (lp rp : ℕ) : INode H := { hash := h, n0 := some lp, n1 := some rp }

/-- The node of a root. -/
def rootNode (p pos : ℕ) : PNode := { e := { node := some p, sib := some p, pos := pos }, up := [] }

theorem mergeRoot_ok {s : Pollard H} {n : ℕ} {f : ℕ → H} {A : Addr} {k : ℕ} (hm : Merging s n f A k)
    (hk : k < 64) (hb : n.testBit k = true) (hbits : ∀ p, p < k → n.testBit p = true) (pos : ℕ) :
    ∃ (s' : Pollard H) (A' : Addr) (nr : PNode), mergeRoot s pos (mt f (k + 1) (n / 2 ^ (k + 1))) = .ok (nr, s') ∧
      Merging s' n f A' (k + 1) ∧ s'.posmap = s.posmap ∧ nr.e.pos = pos ∧ nr.e.node = A' (k + 1) (n / 2 ^ (k + 1)) ∧
      (∀ t, Flag s'.ext (midRt n (k + 1)) A' t ↔ Flag s.ext (midRt n k) A t) ∧
      (SparseM s.ext n k A → SparseM s'.ext n (k + 1) A') ∧
      (∀ y, ¬ (k = 0 ∧ y / 2 = n / 2) → A' 0 y = A 0 y) ∧
      (k = 0 → ∀ y, y / 2 = n / 2 → ((A' 0 y).isSome ↔ Flag s.ext (midRt n k) A y ∨ Flag s.ext (midRt n k) A (y ^^^ 1))) ∧
      (TightM n k A → TightM n (k + 1) A') := by
  have hsplit := testBit_div (n := n) (t := k)
  rw [if_pos hb] at hsplit
  set z := n / 2 ^ (k + 1) with hzdef
  have tl : midRt n k k (2 * z) = true := midRt_old le_rfl (rtOf_true.2 ⟨hb, by rw [rootIdx_le]⟩)
  have tr : midRt n k k (2 * z + 1) = true := by rw [← hsplit]; exact midRt_new n k
  obtain ⟨lp, hl⟩ := Option.isSome_iff_exists.1 (hm.shape.root _ _ tl)
  obtain ⟨rp, hr⟩ := Option.isSome_iff_exists.1 (hm.shape.root _ _ tr)
  have hne : lp ≠ rp := by
    rintro rfl
    have := (hm.shape.inj _ _ _ _ _ hl hr).2; omega
  have an : A (k + 1) z = none := hm.high _ _ (by omega) (by omega)
  have tp : midRt n k (k + 1) z = false := by
    by_contra hc
    simp only [Bool.not_eq_false] at hc
    have := hm.shape.root _ _ hc
    rw [an] at this; simp at this
  have hll := (hm.shape.bnd _ _ _ hl).2
  have hrl := (hm.shape.bnd _ _ _ hr).2
  obtain ⟨lx, hlx⟩ := hm.shape.get hl
  obtain ⟨rx, hrx⟩ := hm.shape.get hr
  -- the last two roots
  have hcoords : midCoords n k = ((rowsFrom n (k + 1)).map fun t => (t, rootIdx n t)) ++ [(k, 2 * z), (k, 2 * z + 1)] := by
    unfold midCoords
    rw [rowsFrom_bit hk hb, List.map_append, hsplit, List.append_assoc, List.map_singleton, rootIdx_le]
    rfl
  have hnode := hm.roots.node
  have hsib := hm.roots.sib
  rw [hcoords] at hnode hsib
  obtain ⟨rest, l, r, hroots, hln, hrn, hrestn, hrests⟩ : ∃ rest l r, s.roots = rest ++ [l, r] ∧ l.e.node = some lp ∧
      r.e.node = some rp ∧ rest.map (fun r => r.e.node) = (rowsFrom n (k + 1)).map (fun t => A t (rootIdx n t)) ∧
      rest.map (fun r => r.e.sib) = (rowsFrom n (k + 1)).map (fun t => A t (rootIdx n t)) := by
    rw [List.map_append] at hnode hsib
    obtain ⟨rest, tail, e, h1, h2⟩ := List.map_eq_append_iff.1 hnode
    have hlen : tail.length = 2 := by simpa using congrArg List.length h2
    match tail, hlen with
    | [l, r], _ =>
      simp only [List.map_cons, List.map_nil, List.cons.injEq, and_true] at h2
      refine ⟨rest, l, r, e, by rw [h2.1, hl], by rw [h2.2, hr], by rw [h1, List.map_map]; rfl, ?_⟩
      rw [e, List.map_append] at hsib
      have hlen' : (rest.map (fun r => r.e.sib)).length = ((List.map (fun c => A c.1 c.2)
          ((rowsFrom n (k + 1)).map fun t => (t, rootIdx n t)))).length := by
        have := congrArg List.length h1
        simpa using this
      have := (List.append_inj hsib hlen').1
      rw [this, List.map_map]; rfl
  -- the heap before pruning
  set heap1 := s.ext.set lp (wKids lx rx) with hheap1
  set heap2 := heap1.set rp (wKids rx lx) with hheap2
  set heap3 := heap2 ++ [pairNode (mt f (k + 1) z) lp rp] with hheap3
  have len1 : heap1.length = s.ext.length := by rw [hheap1]; simp
  have len2 : heap2.length = s.ext.length := by rw [hheap2]; simp [len1]
  have len3 : heap3.length = s.ext.length + 1 := by rw [hheap3]; simp [len2]
  have hrx1 : heap1[rp]? = some rx := by rw [hheap1, List.getElem?_set_ne hne]; exact hrx
  have get2 : ∀ t, t < s.ext.length → heap3[t]? = heap2[t]? := by
    intro t ht
    rw [hheap3, List.getElem?_append_left (by omega)]
  have get3 : heap3[s.ext.length]? = some (pairNode (mt f (k + 1) z) lp rp) := by
    rw [hheap3, List.getElem?_append_right (by omega), len2]; simp
  have nz3 : ∀ t b, b < 2 → nz heap3 (some t) b = if t = s.ext.length then (if b = 0 then some lp else some rp) else
      if t = lp then nz s.ext (some rp) b else if t = rp then nz s.ext (some lp) b else nz s.ext (some t) b := by
    intro t b hb2
    rcases Nat.lt_trichotomy t s.ext.length with ht | ht | ht
    · rw [if_neg (by omega), hheap3, nz_append (by omega), hheap2, nz_set (by omega)]
      by_cases h1 : t = rp
      · rw [if_pos h1, if_neg (by omega), if_pos h1, niece_pair, nz_some hlx]
      · rw [if_neg h1, hheap1, nz_set hll]
        by_cases h2 : t = lp
        · rw [if_pos h2, if_pos h2, niece_pair, nz_some hrx]
        · rw [if_neg h2, if_neg h2, if_neg h1]
    · rw [if_pos ht, ht, nz_some get3]
      unfold INode.niece pairNode
      rfl
    · rw [if_neg (by omega), if_neg (by omega), if_neg (by omega)]
      unfold nz
      simp only [Option.bind_some]
      rw [List.getElem?_eq_none (by omega), List.getElem?_eq_none (by omega)]
  have hz3 : ∀ t, t < s.ext.length → hz heap3 t = hz s.ext t := by
    intro t ht
    have : hz heap3 t = hz heap2 t := by unfold hz; rw [get2 t ht]
    rw [this, hheap2, hz_set (by omega)]
    split
    · rename_i e; subst e; unfold hz; rw [hrx]; rfl
    · rw [hheap1, hz_set hll]
      split
      · rename_i e; subst e; unfold hz; rw [hlx]; rfl
      · rfl
  have hsh := hm.shape.merge hl hr tl tr tp an rfl len3 nz3
  rw [midRt_merge hb] at hsh
  set A1 := upd A (k + 1) z (some s.ext.length) with hA1
  have hroot1 : midRt n (k + 1) (k + 1) z = true := midRt_new n (k + 1)
  -- the common part, with or without pruning
  have key : ∀ (heap' : List (INode H)) (A' : Addr), Shape heap' (midRt n (k + 1)) A' → (∀ t, hz heap' t = hz heap3 t) →
      (∀ q y p, A' q y = some p → A1 q y = some p) → (∀ q y, k < q → A' q y = A1 q y) →
      Merging { s with ext := heap', roots := rest ++ [rootNode s.ext.length pos] } n f A' (k + 1) := by
    intro heap' A' h1 h2 h3 h4
    have hA' : A' (k + 1) z = some s.ext.length := by rw [h4 _ _ (by omega), hA1, upd_self]
    have hrow : ∀ t ∈ rowsFrom n (k + 1), A' t (rootIdx n t) = A t (rootIdx n t) := by
      intro t ht
      obtain ⟨g1, -, g3⟩ := mem_rowsFrom.1 ht
      rw [h4 _ _ (by omega), hA1, upd_ne]
      rintro ⟨e1, e2⟩
      have := Ram.root_in g3
      rw [e2, e1] at this
      omega
    have hnone : ∀ q y, A q y = none → ¬ (q = k + 1 ∧ y = z) → A' q y = none := by
      intro q y h hc
      cases hp : A' q y with
      | none => rfl
      | some p =>
        have := h3 _ _ _ hp
        rw [hA1, upd_ne hc, h] at this
        simp at this
    refine ⟨hm.num, h1, ?_, ⟨?_, ?_, ?up⟩, ?_, ?_⟩
    case up =>
      intro r' hr'
      rcases List.mem_append.1 hr' with g | g
      · exact hm.roots.up r' (by rw [hroots]; exact List.mem_append_left _ g)
      · rw [List.mem_singleton.1 g]; rfl
    · intro q y p hp
      show hz heap' p = _
      rw [h2]
      have := h3 _ _ _ hp
      by_cases hc : q = k + 1 ∧ y = z
      · rw [hc.1, hc.2, hA1, upd_self] at this
        injection this with this
        subst this
        unfold hz
        rw [get3, hc.1, hc.2]; rfl
      · rw [hA1, upd_ne hc] at this
        rw [hz3 _ (hm.shape.bnd _ _ _ this).2]
        exact hm.hashed _ _ _ this
    · show (rest ++ _).map _ = _
      unfold midCoords
      rw [List.map_append, List.map_append, hrestn, List.map_map]
      congr 1
      · apply List.map_congr_left
        intro t ht
        exact (hrow t ht).symm
      · simp only [List.map_cons, List.map_nil]
        rw [← hzdef, hA']; rfl
    · show (rest ++ _).map _ = _
      unfold midCoords
      rw [List.map_append, List.map_append, hrests, List.map_map]
      congr 1
      · apply List.map_congr_left
        intro t ht
        exact (hrow t ht).symm
      · simp only [List.map_cons, List.map_nil]
        rw [← hzdef, hA']; rfl
    · intro q y hq hy
      have hs1 := succ_div_of_bits (n := n) (k + 1) (fun p hp => by
        rcases Nat.lt_or_eq_of_le (Nat.le_of_lt_succ hp) with g | g
        · exact hbits p g
        · rw [g]; exact hb)
      by_cases hqk : q ≤ k
      · exact hnone _ _ (hm.low q y hqk hy) (by omega)
      · have : q = k + 1 := by omega
        subst this
        exact hnone _ _ (hm.high _ _ (by omega) (by omega)) (by omega)
    · intro q y hq hy
      exact hnone _ _ (hm.high q y (by omega) hy) (by omega)
  have hhold : holder (midRt n (k + 1)) A1 (k + 1) z = some s.ext.length := by
    rw [holder_root hroot1, hA1, upd_self]
  have hlow : ∀ x, x / 2 = z → midRt n (k + 1) k x = false := by
    intro x hx
    rw [← midRt_merge hb]; exact mergeRt_low hx
  have hflag : ∀ t, Flag s.ext (midRt n k) A t → ∃ p, A1 0 (t ^^^ 1) = some p ∧ p ≠ s.ext.length ∧ (nz heap3 (some p) 0).isSome := by
    intro t ht
    obtain ⟨p, hp, hf⟩ := ht.holder
    obtain ⟨j, hj⟩ := holder_addr hp
    have hpl := (hm.shape.bnd _ _ _ hj).2
    have stay : A 0 (t ^^^ 1) = some p → p ≠ lp → p ≠ rp → ∃ p, A1 0 (t ^^^ 1) = some p ∧ p ≠ s.ext.length ∧ (nz heap3 (some p) 0).isSome := by
      intro h1 h2 h3
      refine ⟨p, by rw [hA1, upd_ne (by omega)]; exact h1, by omega, ?_⟩
      rw [nz3 _ _ (by omega), if_neg (by omega), if_neg h2, if_neg h3]; exact hf
    have x0 : (2 * z) ^^^ 1 = 2 * z + 1 := by rw [xor_one_cases]; split <;> omega
    have x1 : (2 * z + 1) ^^^ 1 = 2 * z := by rw [xor_one_cases]; split <;> omega
    rcases Nat.eq_zero_or_pos k with rfl | hk0
    · by_cases h0 : t = 2 * z
      · subst h0
        rw [holder_root tl, hl] at hp
        injection hp with hp
        subst hp
        refine ⟨rp, by rw [x0, hA1, upd_ne (by omega)]; exact hr, by omega, ?_⟩
        rw [nz3 _ _ (by omega), if_neg (by omega), if_neg (Ne.symm hne), if_pos rfl]; exact hf
      · by_cases h1 : t = 2 * z + 1
        · subst h1
          rw [holder_root tr, hr] at hp
          injection hp with hp
          subst hp
          refine ⟨lp, by rw [x1, hA1, upd_ne (by omega)]; exact hl, by omega, ?_⟩
          rw [nz3 _ _ (by omega), if_neg (by omega), if_pos rfl]; exact hf
        · rcases holder_some hp with ⟨g1, g2⟩ | ⟨g1, g2, g3⟩
          · exfalso
            unfold midRt at g1
            simp only [Bool.or_eq_true, Bool.and_eq_true, decide_eq_true_eq] at g1
            rcases g1 with ⟨-, g⟩ | ⟨-, g⟩
            · have := (rtOf_true.1 g).2
              rw [rootIdx_le] at this
              exact h0 this
            · omega
          · refine stay g3 ?_ ?_
            · rintro rfl
              have := (hm.shape.inj _ _ _ _ _ g3 hl).2
              rw [this, tl] at g2; simp at g2
            · rintro rfl
              have := (hm.shape.inj _ _ _ _ _ g3 hr).2
              rw [this, tr] at g2; simp at g2
    · obtain ⟨k', rfl⟩ : ∃ k', k = k' + 1 := ⟨k - 1, by omega⟩
      rw [holder_low (fun j => midRt_low)] at hp
      refine stay hp ?_ ?_
      · rintro rfl
        have := (hm.shape.inj _ _ _ _ _ hp hl).1; omega
      · rintro rfl
        have := (hm.shape.inj _ _ _ _ _ hp hr).1; omega
  have hback : ∀ t p, A1 0 (t ^^^ 1) = some p → (nz heap3 (some p) 0).isSome → Flag s.ext (midRt n k) A t := by
    intro t p hp hf
    rw [hA1, upd_ne (by omega)] at hp
    have hpl := (hm.shape.bnd _ _ _ hp).2
    rw [nz3 _ _ (by omega), if_neg (by omega)] at hf
    unfold Flag
    by_cases c1 : p = lp
    · subst c1
      obtain ⟨k0, ht⟩ := hm.shape.inj _ _ _ _ _ hp hl
      subst k0
      have ht' : t = 2 * z + 1 := by rw [← sb_sb t, ht, xor_one_even]
      rw [if_pos rfl] at hf
      rw [ht', holder_root tr, hr]; exact hf
    · rw [if_neg c1] at hf
      by_cases c2 : p = rp
      · subst c2
        obtain ⟨k0, ht⟩ := hm.shape.inj _ _ _ _ _ hp hr
        subst k0
        have ht' : t = 2 * z := by rw [← sb_sb t, ht, xor_one_odd]
        rw [if_pos rfl] at hf
        rw [ht', holder_root tl, hl]; exact hf
      · rw [if_neg c2] at hf
        have hh : holder (midRt n k) A 0 t = some p := by
          rcases Nat.eq_zero_or_pos k with rfl | hk0
          · have hno : ∀ y, midRt n 0 0 y = true → y = 2 * z ∨ y = 2 * z + 1 := by
              intro y g1
              unfold midRt at g1
              simp only [Bool.or_eq_true, Bool.and_eq_true, decide_eq_true_eq] at g1
              rcases g1 with ⟨-, g⟩ | ⟨-, g⟩
              · have := (rtOf_true.1 g).2
                rw [rootIdx_le] at this
                exact .inl this
              · right; omega
            have hn1 : ∀ y, A 0 y = some p → y ≠ 2 * z ∧ y ≠ 2 * z + 1 := by
              intro y hy
              constructor
              · rintro rfl; rw [hl] at hy; exact c1 (Option.some.inj hy).symm
              · rintro rfl; rw [hr] at hy; exact c2 (Option.some.inj hy).symm
            have g1 : midRt n 0 0 (t ^^^ 1) = false := by
              by_contra hc
              simp only [Bool.not_eq_false] at hc
              have := hn1 _ hp
              rcases hno _ hc with e | e <;> omega
            have g2 : midRt n 0 0 t = false := by
              by_contra hc
              simp only [Bool.not_eq_false] at hc
              have := hn1 _ hp
              rcases hno _ hc with e | e
              · rw [e, xor_one_even] at this; omega
              · rw [e, xor_one_odd] at this; omega
            rw [holder_sib g2 g1]; exact hp
          · obtain ⟨k', rfl⟩ : ∃ k', k = k' + 1 := ⟨k - 1, by omega⟩
            rw [holder_low (fun j => midRt_low)]; exact hp
        rw [hh]; exact hf
  have hflag3 : ∀ t, Flag heap3 (midRt n (k + 1)) A1 t ↔ Flag s.ext (midRt n k) A t := by
    intro t
    constructor
    · intro h
      obtain ⟨p, h1, h2⟩ := h.holder
      rw [holder_low (fun j => midRt_low)] at h1
      exact hback t p h1 h2
    · intro h
      obtain ⟨p, q1, q2, q3⟩ := hflag t h
      show (nz heap3 (holder (midRt n (k + 1)) A1 0 t) 0).isSome
      rw [holder_low (fun j => midRt_low), q1]; exact q3
  -- which children are kept
  have hdead : ∀ y, y / 2 = z → (Dead heap3 (A1 k y) ↔ kidc s.ext (midRt n k) A k (y ^^^ 1) = false) := by
    intro y hy
    have e : kidc heap3 (midRt n (k + 1)) A1 k (y ^^^ 1) = kidc s.ext (midRt n k) A k (y ^^^ 1) := by
      cases k with
      | zero =>
        simp only [kidc]
        rw [Bool.eq_iff_iff]
        exact hflag3 _
      | succ k =>
        simp only [kidc]
        rw [hA1, upd_ne (by omega), upd_ne (by omega)]
    rw [← e]
    refine hsh.dead_iff (hlow y hy) (hlow _ (by rw [sb_div]; exact hy)) ?_
    rintro q rfl j -
    exact midRt_low' (by omega)
  have hsparse : ∀ (heap' : List (INode H)) (A' : Addr), (∀ t, Flag heap' (midRt n (k + 1)) A' t ↔ Flag s.ext (midRt n k) A t) →
      (∀ q y, (q = k → y / 2 ≠ z) → A' q y = A1 q y) →
      ((A' k (2 * z)).isSome || (A' k (2 * z + 1)).isSome) = (kidc s.ext (midRt n k) A k (2 * z) || kidc s.ext (midRt n k) A k (2 * z + 1)) →
      SparseM s.ext n k A → SparseM heap' n (k + 1) A' := by
    intro heap' A' h1 h2 h3 hsp
    have e0 : kidc heap' (midRt n (k + 1)) A' 0 = kidc s.ext (midRt n k) A 0 := by
      funext t
      simp only [kidc]
      rw [Bool.eq_iff_iff]
      exact h1 t
    have hs1 := succ_div_of_bits (n := n) (k + 1) (fun p hp => by
        rcases Nat.lt_or_eq_of_le (Nat.le_of_lt_succ hp) with g | g
        · exact hbits p g
        · rw [g]; exact hb)
    have hs0 := succ_div_of_bits (n := n) k hbits
    rw [SparseM, e0]
    intro q x hx
    unfold Mid at hx
    cases q with
    | zero => rw [e0]; rfl
    | succ q =>
      by_cases hq : q = k ∧ x = z
      · obtain ⟨rfl, rfl⟩ := hq
        rw [@mt_succ Bool kidOps, ← hsp q _ (by unfold Mid; rw [if_pos le_rfl]; omega), ← hsp q _ (by unfold Mid; rw [if_pos le_rfl]; omega)]
        exact h3
      · have hx' : Mid n k (q + 1) x := by
          unfold Mid
          by_cases c1 : q + 1 ≤ k
          · rw [if_pos c1]; rwa [if_pos (by omega)] at hx
          · rw [if_neg c1]
            by_cases c2 : q = k
            · subst c2
              rw [if_pos le_rfl] at hx
              omega
            · rwa [if_neg (by omega)] at hx
        rw [← hsp _ _ hx']
        simp only [kidc]
        have hne : ∀ y, y / 2 = x → A' q y = A q y := by
          intro y hy
          rw [h2 q y (fun hqk hc => hq ⟨hqk, by omega⟩), hA1, upd_ne]
          rintro ⟨rfl, rfl⟩
          rw [if_neg (by omega)] at hx
          have : n / 2 ^ (k + 1) / 2 = n / 2 ^ (k + 1 + 1) := by rw [Nat.div_div_eq_div_mul, ← pow_succ]
          omega
        rw [hne _ (by omega), hne _ (by omega)]
  have htight : ∀ (A' : Addr), (∀ q y, (q = k → y / 2 ≠ z) → A' q y = A1 q y) →
      (0 < k → ∀ y, y / 2 = z → (A' k y).isSome = kidc s.ext (midRt n k) A k (y ^^^ 1)) → TightM n k A → TightM n (k + 1) A' := by
    intro A' h2 h3 hT
    have hs1 := succ_div_of_bits (n := n) (k + 1) (fun p hp => by
        rcases Nat.lt_or_eq_of_le (Nat.le_of_lt_succ hp) with g | g
        · exact hbits p g
        · rw [g]; exact hb)
    intro q x hx
    unfold Mid at hx
    match q, hx with
    | 0, _ => rfl
    | 1, _ => rfl
    | q + 2, hx =>
      by_cases hq : q + 1 = k ∧ x = z
      · obtain ⟨rfl, rfl⟩ := hq
        have k0 := h3 (by omega) (2 * z) (by omega)
        have k1 := h3 (by omega) (2 * z + 1) (by omega)
        rw [xor_one_even] at k0
        rw [xor_one_odd] at k1
        simp only [kidc] at k0 k1
        have hq' : ∀ y, A' q y = A q y := by
          intro y
          rw [h2 q y (by omega), hA1, upd_ne (by omega)]
        simp only [tcell]
        rw [k0, k1, hq', hq', hq', hq']
        simp
      · have d1 : n / 2 ^ (k + 1) / 2 = n / 2 ^ (k + 1 + 1) := by rw [Nat.div_div_eq_div_mul, ← pow_succ]
        have d2 : n / 2 ^ (k + 1 + 1) / 2 = n / 2 ^ (k + 1 + 1 + 1) := by rw [Nat.div_div_eq_div_mul, ← pow_succ]
        have hx' : Mid n k (q + 2) x := by
          unfold Mid
          by_cases c1 : q + 2 ≤ k
          · rw [if_pos c1]; rwa [if_pos (by omega)] at hx
          · rw [if_neg c1]
            by_cases c2 : q + 1 = k
            · subst c2
              rw [if_pos le_rfl] at hx
              have e : q + 1 + 1 = q + 2 := rfl
              rw [e] at hs1
              have : x ≠ n / 2 ^ (q + 2) := fun h => hq ⟨rfl, h⟩
              omega
            · rwa [if_neg (by omega)] at hx
        rw [← hT _ _ hx']
        have hnz : q = k ∨ q = k + 1 → x < n / 2 ^ (q + 2) := by
          intro h
          rwa [if_neg (by omega)] at hx
        refine tcell_congr ?_ ?_
        · intro b hb
          rw [h2 _ _ (fun hk hc => hq ⟨hk, by omega⟩), hA1, upd_ne]
          rintro ⟨e1, e2⟩
          obtain rfl : q = k := by omega
          have := hnz (.inl rfl)
          have e : q + 2 = q + 1 + 1 := rfl
          rw [e] at this
          omega
        · intro b hb
          rw [h2 _ _ ?_, hA1, upd_ne]
          · rintro ⟨rfl, e2⟩
            have := hnz (.inr rfl)
            have e : k + 1 + 2 = k + 1 + 1 + 1 := rfl
            rw [e] at this
            omega
          · rintro rfl hc
            have := hnz (.inl rfl)
            have e : q + 2 = q + 1 + 1 := rfl
            rw [e] at this
            omega
  obtain ⟨heap4, p1, p2, p3, p4, p5⟩ := prune_ok hsh hhold (hlow _ (by omega)) (hlow _ (by omega))
  obtain ⟨lx3, hlx3⟩ : ∃ x, heap3[lp]? = some x := ⟨_, List.getElem?_eq_getElem (by omega)⟩
  obtain ⟨rx3, hrx3⟩ : ∃ x, heap3[rp]? = some x := ⟨_, List.getElem?_eq_getElem (by omega)⟩
  have hrev : s.roots.reverse = r :: l :: rest.reverse := by rw [hroots]; simp
  have w1 : store s.ext (some lp) { lx with n0 := rx.n0, n1 := rx.n1 } = .ok heap1 := store_ok hll _
  have w2 : store heap1 (some rp) { rx with n0 := lx.n0, n1 := lx.n1 } = .ok heap2 := store_ok (by omega) _
  have e3 : heap2 ++ [{ hash := mt f (k + 1) z, n0 := some lp, n1 := some rp }] = heap3 := rfl
  have hmerge : mergeRoot s pos (mt f (k + 1) z) = (do
      let heap ← if lx3.n0 ≠ some remember ∧ rx3.n0 ≠ some remember then prune heap3 (some s.ext.length) else pure heap3
      let node : PNode := { e := { node := some s.ext.length, sib := some s.ext.length, pos := pos }, up := [] }
      return (node, { s with ext := heap, roots := rest ++ [node] })) := by
    unfold mergeRoot
    rw [hrev]
    simp only
    rw [hln, hrn, deref_ok hlx, ok_bind, deref_ok hrx, ok_bind, w1, ok_bind, deref_ok hrx1, ok_bind, w2, ok_bind, e3,
      deref_ok hlx3, ok_bind, deref_ok hrx3, ok_bind, len2, List.reverse_reverse]
  have hflag4 : ∀ t, Flag heap4 (midRt n (k + 1)) (pruneAddr heap3 k z A1) t ↔ Flag s.ext (midRt n k) A t := by
    intro t
    constructor
    · intro h
      obtain ⟨p, h1, h2⟩ := h.holder
      rw [holder_low (fun j => midRt_low)] at h1
      have h3 := pruneAddr_some h1
      refine hback t p h3 ?_
      rw [p5 _ _ ?_] at h2
      · exact h2
      · rintro rfl
        have : A1 (k + 1) z = some s.ext.length := by rw [hA1, upd_self]
        have := (hsh.inj _ _ _ _ _ h3 this).1
        omega
    · intro ht
      obtain ⟨p, q1, q2, q3⟩ := hflag t ht
      show (nz heap4 (holder (midRt n (k + 1)) (pruneAddr heap3 k z A1) 0 t) 0).isSome
      rw [holder_low (fun j => midRt_low)]
      have : pruneAddr heap3 k z A1 0 (t ^^^ 1) = some p := by
        unfold pruneAddr
        split
        · rename_i e
          rw [← e.1, q1]
          apply keep_live
          rintro ⟨d, -⟩
          rw [d] at q3; simp at q3
        · exact q1
      rw [this, p5 _ _ q2]; exact q3
  rw [hmerge]
  split
  · rw [p1, ok_bind]
    have hk : ∀ y, y / 2 = z → (A1 k y).isSome → (pruneAddr heap3 k z A1 k y).isSome = kidc s.ext (midRt n k) A k (y ^^^ 1) := by
      intro y hy hs
      unfold pruneAddr
      rw [if_pos ⟨rfl, hy⟩]
      by_cases hde : Dead heap3 (A1 k y)
      · rw [keep_dead hde, (hdead y hy).1 hde]; rfl
      · rw [keep_live hde, hs]
        rw [hdead y hy] at hde
        simpa using hde
    have l1 : A1 k (2 * z) = some lp := by rw [hA1, upd_ne (by omega)]; exact hl
    have r1 : A1 k (2 * z + 1) = some rp := by rw [hA1, upd_ne (by omega)]; exact hr
    refine ⟨_, pruneAddr heap3 k z A1, _, rfl, key heap4 _ p3 p4 (fun q y p h => pruneAddr_some h) ?_, rfl, rfl, ?_, hflag4, hsparse heap4 _ hflag4 ?_ ?_,
      ?_, ?_, htight _ ?_ ?_⟩
    · intro q y hq
      unfold pruneAddr; rw [if_neg (by omega)]
    · show some s.ext.length = _
      unfold pruneAddr; rw [if_neg (by omega), hA1, upd_self]
    · intro q y hq
      unfold pruneAddr
      rw [if_neg]
      rintro ⟨e1, e2⟩
      exact hq e1 e2
    · rw [hk _ (by omega) (by rw [l1]; rfl), hk _ (by omega) (by rw [r1]; rfl), xor_one_even, xor_one_odd]
      exact Bool.or_comm _ _
    · intro y hy
      unfold pruneAddr
      rw [if_neg (by
        rintro ⟨rfl, e⟩
        exact hy ⟨rfl, by rw [e, hzdef]; simp⟩), hA1, upd_ne (by omega)]
    · rename_i hcond
      rintro rfl y hy
      have hyz : y / 2 = z := by rw [hy, hzdef]; simp
      have l1 : A1 0 (2 * z) = some lp := by rw [hA1, upd_ne (by omega)]; exact hl
      have r1 : A1 0 (2 * z + 1) = some rp := by rw [hA1, upd_ne (by omega)]; exact hr
      have dead : ∀ x p px, A1 0 x = some p → heap3[p]? = some px → px.n0 ≠ some remember → Dead heap3 (A1 0 x) := by
        intro x p px h1 h2 h3
        refine ⟨?_, (hsh.leaf x).1⟩
        rcases (hsh.leaf x).2 with h | h
        · exact h
        · rw [h1, nz_some h2] at h
          exact absurd h h3
      have d0 := (hdead (2 * z) (by omega)).1 (dead _ _ _ l1 hlx3 hcond.1)
      have d1 := (hdead (2 * z + 1) (by omega)).1 (dead _ _ _ r1 hrx3 hcond.2)
      rw [xor_one_even] at d0
      rw [xor_one_odd] at d1
      have hno : ∀ x, x / 2 = z → ¬ Flag s.ext (midRt n 0) A x := by
        intro x hx hc
        have hc' : kidc s.ext (midRt n 0) A 0 x = true := hc
        rcases (by omega : x = 2 * z ∨ x = 2 * z + 1) with rfl | rfl
        · rw [d1] at hc'; simp at hc'
        · rw [d0] at hc'; simp at hc'
      refine iff_of_false ?_ (by
        rintro (h | h)
        · exact hno y hyz h
        · exact hno _ (by rw [sb_div]; exact hyz) h)
      unfold pruneAddr
      rw [if_pos ⟨rfl, hyz⟩]
      rcases (by omega : y = 2 * z ∨ y = 2 * z + 1) with rfl | rfl
      · rw [keep_dead (dead _ _ _ l1 hlx3 hcond.1)]; simp
      · rw [keep_dead (dead _ _ _ r1 hrx3 hcond.2)]; simp
    · intro q y hq
      unfold pruneAddr
      rw [if_neg]
      rintro ⟨e1, e2⟩
      exact hq e1 e2
    · intro _ y hy
      refine hk y hy ?_
      rcases (by omega : y = 2 * z ∨ y = 2 * z + 1) with e | e
      · rw [e, l1]; rfl
      · rw [e, r1]; rfl
  · rename_i hcond
    refine ⟨_, A1, _, rfl, key heap3 A1 hsh (fun _ => rfl) (fun q y p h => h) (fun _ _ _ => rfl), rfl, rfl, ?_, hflag3,
      hsparse heap3 A1 hflag3 (fun _ _ _ => rfl) ?_, fun y _ => by rw [hA1, upd_ne (by omega)], ?_, htight A1 (fun _ _ _ => rfl) ?_⟩
    · show some s.ext.length = _
      rw [hA1, upd_self]
    rotate_left
    · rintro rfl y hy
      have hyz : y / 2 = z := by rw [hy, hzdef]; simp
      have l1 : A1 0 (2 * z) = some lp := by rw [hA1, upd_ne (by omega)]; exact hl
      have r1 : A1 0 (2 * z + 1) = some rp := by rw [hA1, upd_ne (by omega)]; exact hr
      have hor : Flag s.ext (midRt n 0) A (2 * z) ∨ Flag s.ext (midRt n 0) A (2 * z + 1) := by
        have d0 := hdead (2 * z) (by omega)
        have d1 := hdead (2 * z + 1) (by omega)
        rw [xor_one_even, l1] at d0
        rw [xor_one_odd, r1] at d1
        by_contra hc
        rw [not_or] at hc
        have g0 := d0.2 (by simp only [kidc]; simpa [Flag] using hc.2)
        have g1 := d1.2 (by simp only [kidc]; simpa [Flag] using hc.1)
        apply hcond
        have n0 : lx3.n0 = none := by have := g0.1; rw [nz_some hlx3] at this; exact this
        have n1 : rx3.n0 = none := by have := g1.1; rw [nz_some hrx3] at this; exact this
        rw [n0, n1]
        simp
      rcases (by omega : y = 2 * z ∨ y = 2 * z + 1) with rfl | rfl
      · rw [xor_one_even]
        exact iff_of_true (by rw [l1]; rfl) hor
      · rw [xor_one_odd]
        exact iff_of_true (by rw [r1]; rfl) hor.symm
    · -- the flag of a leaf is no pointer to an object
      intro hk0
      exfalso
      obtain ⟨k', rfl⟩ : ∃ k', k = k' + 1 := ⟨k - 1, by omega⟩
      apply hcond
      have hptr : ∀ y p px, y / 2 = z → A1 (k' + 1) (y ^^^ 1) = some p → heap3[p]? = some px → px.n0 ≠ some remember := by
        intro y p px hy hp hpx hc
        have h1 := hsh.kids k' (2 * y) (midRt_low' (by omega))
        rw [show 2 * y / 2 = y by omega, holder_sib (hlow y hy) (hlow _ (by rw [sb_div]; exact hy)), hp, nz_some hpx,
          show 2 * y % 2 = 0 by omega] at h1
        have h2 : A1 k' (2 * y) = some remember := by rw [h1]; exact hc
        have := (hsh.bnd _ _ _ h2).1
        unfold remember at this
        omega
      have l1 : A1 (k' + 1) (2 * z) = some lp := by rw [hA1, upd_ne (by omega)]; exact hl
      have r1 : A1 (k' + 1) (2 * z + 1) = some rp := by rw [hA1, upd_ne (by omega)]; exact hr
      exact ⟨hptr (2 * z + 1) lp lx3 (by omega) (by rw [xor_one_odd]; exact l1) hlx3,
        hptr (2 * z) rp rx3 (by omega) (by rw [xor_one_even]; exact r1) hrx3⟩
    · have l1 : A1 k (2 * z) = some lp := by rw [hA1, upd_ne (by omega)]; exact hl
      have r1 : A1 k (2 * z + 1) = some rp := by rw [hA1, upd_ne (by omega)]; exact hr
      have hor : kidc s.ext (midRt n k) A k (2 * z) = true ∨ kidc s.ext (midRt n k) A k (2 * z + 1) = true := by
        have d0 := hdead (2 * z) (by omega)
        have d1 := hdead (2 * z + 1) (by omega)
        rw [xor_one_even, l1] at d0
        rw [xor_one_odd, r1] at d1
        by_contra hc
        simp only [not_or, Bool.not_eq_true] at hc
        have g0 := d0.2 hc.2
        have g1 := d1.2 hc.1
        apply hcond
        have n0 : lx3.n0 = none := by have := g0.1; rw [nz_some hlx3] at this; exact this
        have n1 : rx3.n0 = none := by have := g1.1; rw [nz_some hrx3] at this; exact this
        rw [n0, n1]
        simp
      rw [l1, r1]
      rcases hor with e | e <;> rw [e] <;> simp

theorem mergeLoop_ok {n : ℕ} {f : ℕ → H} (hn62 : n + 1 ≤ 2 ^ 62) {t : ℕ}
    (ht : t < 64) (hbits : ∀ p, p < t → n.testBit p = true) (htz : n.testBit t = false) :
    ∀ (k r fuel : ℕ) (s : Pollard H) (A : Addr) (nr : PNode), r + k = t → k < fuel → Merging s n f A r →
    nr.e.node = A r (n / 2 ^ r) → nr.e.pos = posOf (St.numRows n) r (n / 2 ^ r) →
    ∃ (s' : Pollard H) (A' : Addr), Acc.mergeLoop vt n fuel r ((rowsFrom n r).length - 1 : ℤ) nr s = .ok s' ∧
      Merging s' n f A' t ∧ s'.posmap = s.posmap ∧ (∀ x, Flag s'.ext (midRt n t) A' x ↔ Flag s.ext (midRt n r) A x) ∧
      (SparseM s.ext n r A → SparseM s'.ext n t A') ∧
      (∀ y, ¬ (r = 0 ∧ n % 2 = 1 ∧ y / 2 = n / 2) → A' 0 y = A 0 y) ∧
      (r = 0 → n % 2 = 1 → ∀ y, y / 2 = n / 2 → ((A' 0 y).isSome ↔ Flag s.ext (midRt n r) A y ∨ Flag s.ext (midRt n r) A (y ^^^ 1))) ∧
      (TightM n r A → TightM n t A') := by
  have hR := numRows_le_62 (n := n) (by omega)
  intro k
  induction k with
  | zero =>
    intro r fuel s A nr hk hf hm hh hp
    obtain ⟨fl, rfl⟩ : ∃ fl, fuel = fl + 1 := ⟨fuel - 1, by omega⟩
    have : r = t := by omega
    subst this
    refine ⟨s, A, ?_, hm, rfl, fun _ => Iff.rfl, fun h => h, fun _ _ => rfl, ?_, fun h => h⟩
    rotate_left
    · rintro rfl hodd
      rw [Nat.testBit_zero] at htz
      simp at htz
      omega
    rw [Acc.mergeLoop, hasRoot_eq ht, ok_bind, htz]
    rfl
  | succ k ih =>
    intro r fuel s A nr hk hf hm hh hp
    obtain ⟨fl, rfl⟩ : ∃ fl, fuel = fl + 1 := ⟨fuel - 1, by omega⟩
    have hbr := hbits r (by omega)
    have hsplit := testBit_div (n := n) (t := r)
    rw [if_pos hbr] at hsplit
    obtain ⟨h1, h2⟩ := row_le (n := n) (by omega) (show 2 * (n / 2 ^ (r + 1)) < n / 2 ^ r by omega)
    have hnR : n ≤ 2 ^ St.numRows n := le_two_pow_numRows (by omega)
    have hlt : n / 2 ^ r < 2 ^ (St.numRows n + 1 - r) := by
      have : 2 ^ (St.numRows n + 1 - r) = 2 * 2 ^ (St.numRows n - r) := by
        rw [show St.numRows n + 1 - r = St.numRows n - r + 1 by omega, pow_succ]; ring
      omega
    obtain ⟨s1, A1, nr1, a1, a2, a3, a4, a5, a6, a7, a8, a9, a10⟩ := mergeRoot_ok hm (by omega) hbr (fun p hp => hbits p (by omega))
      (posOf (St.numRows n) (r + 1) (n / 2 ^ (r + 1)))
    obtain ⟨s2, A2, b1, b2, b3, b4, b5, b6, -, b8⟩ := ih (r + 1) fl s1 A1 nr1 (by omega) (by omega) a2 a5 a4
    refine ⟨s2, A2, ?_, b2, b3.trans a3, fun x => (b4 x).trans (a6 x), fun h => b5 (a7 h), ?_, ?_, fun h => b8 (a10 h)⟩
    rotate_left
    · intro y hy
      rw [b6 y (by omega)]
      refine a8 y ?_
      rintro ⟨rfl, e⟩
      rw [Nat.testBit_zero] at hbr
      simp at hbr
      exact hy ⟨rfl, hbr, e⟩
    · intro h0 _ y hy
      rw [b6 y (by omega)]
      exact a9 h0 y hy
    have htl : midRt n r r (2 * (n / 2 ^ (r + 1))) = true := midRt_old le_rfl (rtOf_true.2 ⟨hbr, by rw [rootIdx_le]⟩)
    obtain ⟨lp, hl⟩ := Option.isSome_iff_exists.1 (hm.shape.root _ _ htl)
    obtain ⟨rp, hr⟩ := Option.isSome_iff_exists.1 (hm.shape.root _ _ (midRt_new n r))
    obtain ⟨lx, hlx⟩ := hm.shape.get hl
    obtain ⟨rx, hrx⟩ := hm.shape.get hr
    have hlh := hm.hashed _ _ _ hl
    have hrh := hm.hashed _ _ _ hr
    rw [hlx] at hlh
    rw [hrx] at hrh
    simp only [Option.map_some, Option.some.injEq] at hlh hrh
    have hidx : ((rowsFrom n r).length - 1 : ℤ) = ((rowsFrom n (r + 1)).length : ℤ) := by
      rw [rowsFrom_bit (by omega) hbr]; simp
    obtain ⟨l, hl1, hl2, -⟩ := hm.roots.get (k := (rowsFrom n (r + 1)).length) (r := r) (i := 2 * (n / 2 ^ (r + 1))) (by
      unfold midCoords
      rw [rowsFrom_bit (by omega) hbr]
      simp [rootIdx_le])
    have hra : Acc.rootAt s ((rowsFrom n r).length - 1 : ℤ) = .ok l := by
      unfold Acc.rootAt
      rw [hidx, if_pos (by omega), Int.toNat_natCast, vecGet_ok hl1]
    have hlv : vt.nodeHash s l = .ok (mt f r (2 * (n / 2 ^ (r + 1)))) := by
      show nodeHash s l = _
      unfold nodeHash
      rw [hl2, hl, deref_ok hlx, ok_bind, hlh]; rfl
    have hrv : vt.nodeHash s nr = .ok (mt f r (n / 2 ^ r)) := by
      show nodeHash s nr = _
      unfold nodeHash
      rw [hh, hr, deref_ok hrx, ok_bind, hrh]; rfl
    have hpp : St.parent n ((vt (H := H)).nodePos nr) = .ok (posOf (St.numRows n) (r + 1) (n / 2 ^ (r + 1))) := by
      show St.parent n nr.e.pos = _
      rw [hp, parent_posOf (by omega) h1 hlt, pow_succ, Nat.div_div_eq_div_mul]
    have hph : HashOps.ph (mt f r (2 * (n / 2 ^ (r + 1)))) (mt f r (n / 2 ^ r)) = mt f (r + 1) (n / 2 ^ (r + 1)) := by
      rw [mt_succ, hsplit]
    rw [Acc.mergeLoop, hasRoot_eq (by omega), ok_bind, hbr, if_pos rfl, hra, ok_bind, hlv, ok_bind, hrv, ok_bind, hpp,
      ok_bind]
    have a1' : vt.mergeRoot s (posOf (St.numRows n) (r + 1) (n / 2 ^ (r + 1))) (mt f (r + 1) (n / 2 ^ (r + 1))) = _ := a1
    rw [hph, a1', ok_bind, hidx]
    exact b1

/-- A new leaf. -/
def leafNode (leaf : Leaf H) : INode H := { hash := leaf.1, n0 := if leaf.2 then some remember else none, n1 := none }

/-- The position map after adding a leaf. -/
def addPos (m : PosMap H) (n : ℕ) (leaf : Leaf H) : PosMap H := if leaf.2 then PosMap.insert m leaf.1 n else m

theorem newLeaf_ok {s : Pollard H} {n : ℕ} {f : ℕ → H} {A : Addr} (h : Inv s n f A) (leaf : Leaf H) :
    ∃ (s' : Pollard H), newLeaf s leaf = .ok (rootNode s.ext.length n, s') ∧
      Merging s' n (Function.update f n leaf.1) (upd A 0 n (some s.ext.length)) 0 ∧ s'.posmap = addPos s.posmap n leaf ∧
      (∀ t, Flag s'.ext (midRt n 0) (upd A 0 n (some s.ext.length)) t ↔ Flag s.ext (rtOf n) A t ∨ (t = n ∧ leaf.2 = true)) ∧
      (Sparse s.ext n A → SparseM s'.ext n 0 (upd A 0 n (some s.ext.length))) ∧
      (Tight n A → TightM n 0 (upd A 0 n (some s.ext.length))) := by
  have an : A 0 n = none := h.out 0 n (by simp)
  have tp : rtOf n 0 n = false := by
    by_contra hc
    simp only [Bool.not_eq_false] at hc
    have := rtOf_in hc
    simp at this
  have hsh := h.ph.shape.newRoot (x := leafNode leaf) tp an h.ph.pos (by
    unfold leafNode remember
    refine ⟨rfl, ?_⟩
    cases leaf.2 <;> simp)
  rw [← midRt_start] at hsh
  have new : ∀ i, midRt n 0 0 i = (decide (i = n) || rtOf n 0 i) := by
    intro i; rw [midRt_start]; by_cases e : i = n <;> simp [e]
  have hold : ∀ t, t ≠ n → nz (s.ext ++ [leafNode leaf]) (holder (midRt n 0) (upd A 0 n (some s.ext.length)) 0 t) 0 =
      nz s.ext (holder (rtOf n) A 0 t) 0 := by
    intro t ht
    have hq : holder (midRt n 0) (upd A 0 n (some s.ext.length)) 0 t = holder (rtOf n) A 0 t := by
      unfold holder
      rw [new, new, upd_ne (by omega)]
      by_cases e : t ^^^ 1 = n
      · simp [ht, e, an]
      · simp [ht, e, upd_ne (A := A) (r := 0) (i := n) (r' := 0) (i' := t ^^^ 1) (by tauto)]
    rw [hq]
    cases hp : holder (rtOf n) A 0 t with
    | none => rfl
    | some p =>
      obtain ⟨j, hj⟩ := holder_addr hp
      rw [nz_append (h.ph.shape.bnd _ _ _ hj).2]
  have hnew : (nz (s.ext ++ [leafNode leaf]) (holder (midRt n 0) (upd A 0 n (some s.ext.length)) 0 n) 0).isSome ↔ leaf.2 = true := by
    have : midRt n 0 0 n = true := by rw [midRt_start]; simp
    rw [holder_root this, upd_self]
    unfold nz leafNode INode.niece
    cases leaf.2 <;> simp
  have hnone : ¬ Flag s.ext (rtOf n) A n := by
    intro ht
    obtain ⟨p, hp, hf⟩ := ht.holder
    rcases holder_some hp with ⟨g1, g2⟩ | ⟨g1, g2, g3⟩
    · rw [an] at g2; simp at g2
    · have hlt : n ^^^ 1 < n := by
        by_contra hc
        rw [h.out 0 _ (by simpa using hc)] at g3; simp at g3
      rw [xor_one_cases] at hlt
      have hodd : n % 2 = 1 := by
        by_contra hc
        rw [if_pos (by omega)] at hlt; omega
      have : rtOf n 0 (n ^^^ 1) = true := by
        rw [rtOf_true]
        refine ⟨by simp [Nat.testBit_zero, hodd], ?_⟩
        rw [rootIdx_le, xor_one_cases, if_neg (by omega)]; omega
      rw [g2] at this; simp at this
  refine ⟨{ s with ext := s.ext ++ [leafNode leaf], roots := s.roots ++ [rootNode s.ext.length n],
                   posmap := addPos s.posmap n leaf }, ?_, ⟨h.ph.num, hsh, ?_, ⟨?_, ?_, ?up⟩, ?_, ?_⟩, rfl, ?_, ?_, ?_⟩
  case up =>
    intro r' hr'
    rcases List.mem_append.1 hr' with g | g
    · exact h.ph.roots.up r' g
    · rw [List.mem_singleton.1 g]; rfl
  · unfold newLeaf
    simp only [h.ph.num]
    rfl
  · intro q y p hp
    show hz (s.ext ++ [leafNode leaf]) p = _
    by_cases hc : q = 0 ∧ y = n
    · rw [hc.1, hc.2, upd_self] at hp
      injection hp with hp
      subst hp
      unfold hz
      rw [hc.1, hc.2, mt_zero, Function.update_self]
      simp [leafNode]
    · rw [upd_ne hc] at hp
      have hlt := (h.ph.shape.bnd _ _ _ hp).2
      have h1 := h.ph.hashed _ _ _ hp
      have hy : y < n / 2 ^ q := by
        by_contra hy
        rw [h.out q y hy] at hp; simp at hp
      unfold hz
      rw [List.getElem?_append_left hlt, h1, Ram.mt_update hy]
  · show (s.roots ++ [_]).map _ = _
    unfold midCoords
    rw [List.map_append, List.map_append, h.ph.roots.node, rowsFrom_zero]
    unfold rootCoords
    congr 1
    · apply List.map_congr_left
      intro c hc
      obtain ⟨t, ht, rfl⟩ := List.mem_map.1 hc
      rw [upd_ne]
      rintro ⟨e1, e2⟩
      have := Ram.root_in (mem_treeRows.1 ht).2
      simp only at e1 e2
      rw [e2, e1] at this; simp at this
    · simp [upd_self, rootNode]
  · show (s.roots ++ [_]).map _ = _
    unfold midCoords
    rw [List.map_append, List.map_append, h.ph.roots.sib, rowsFrom_zero]
    unfold rootCoords
    congr 1
    · apply List.map_congr_left
      intro c hc
      obtain ⟨t, ht, rfl⟩ := List.mem_map.1 hc
      rw [upd_ne]
      rintro ⟨e1, e2⟩
      have := Ram.root_in (mem_treeRows.1 ht).2
      simp only at e1 e2
      rw [e2, e1] at this; simp at this
    · simp [upd_self, rootNode]
  · intro q y hq hy
    have : q = 0 := by omega
    subst this
    rw [pow_zero, Nat.div_one] at hy
    rw [upd_ne (by omega)]
    exact h.out 0 y (by simp; omega)
  · intro q y hq hy
    rw [upd_ne (by omega)]
    exact h.out q y hy
  · intro t
    show (nz (s.ext ++ [leafNode leaf]) (holder (midRt n 0) (upd A 0 n (some s.ext.length)) 0 t) 0).isSome ↔ _
    by_cases hn : t = n
    · subst hn
      rw [hnew]
      constructor
      · intro h1; exact .inr ⟨rfl, h1⟩
      · rintro (h1 | ⟨-, h1⟩)
        · exact absurd h1 hnone
        · exact h1
    · rw [hold t hn]
      simp [hn, Flag]
  · intro hsp q x hx
    unfold Mid at hx
    cases q with
    | zero => rfl
    | succ q =>
      rw [if_neg (by omega)] at hx
      have e1 : kidc (s.ext ++ [leafNode leaf]) (midRt n 0) (upd A 0 n (some s.ext.length)) (q + 1) x = kidc s.ext (rtOf n) A (q + 1) x := by
        simp only [kidc]
        have hne : ∀ y, y / 2 = x → ¬ (q = 0 ∧ y = n) := by
          rintro y hy ⟨rfl, rfl⟩
          have : y / 2 ^ (0 + 1) = y / 2 := by simp
          omega
        rw [upd_ne (hne _ (by omega)), upd_ne (hne _ (by omega))]
      show kidc (s.ext ++ [leafNode leaf]) (midRt n 0) (upd A 0 n (some s.ext.length)) (q + 1) x = _
      rw [e1, hsp _ _ hx]
      refine @mt_congr Bool kidOps _ _ _ _ ?_
      intro y hy
      have hyn : y ≠ n := by rintro rfl; omega
      show (nz s.ext (holder (rtOf n) A 0 y) 0).isSome = (nz (s.ext ++ [leafNode leaf]) (holder (midRt n 0) (upd A 0 n (some s.ext.length)) 0 y) 0).isSome
      rw [hold y hyn]
  · intro hT q x hx
    unfold Mid at hx
    match q, hx with
    | 0, _ => rfl
    | 1, _ => rfl
    | q + 2, hx =>
      rw [if_neg (by omega)] at hx
      rw [← hT (q + 2) x hx]
      refine tcell_congr (fun b _ => upd_ne (by omega)) ?_
      intro b hb
      rw [upd_ne]
      rintro ⟨rfl, e⟩
      rw [zero_add, show (2 : ℕ) ^ 2 = 4 by rfl] at hx
      omega

theorem RootsAt.mapPos {roots roots' : List PNode} {A : Addr} {cs : List (ℕ × ℕ)} (h : RootsAt roots A cs)
    (h1 : roots'.map (fun r => r.e.node) = roots.map (fun r => r.e.node))
    (h2 : roots'.map (fun r => r.e.sib) = roots.map (fun r => r.e.sib)) (h3 : ∀ r ∈ roots', r.up = []) : RootsAt roots' A cs :=
  ⟨h1.trans h.node, h2.trans h.sib, h3⟩

theorem addOne_ok {s : Pollard H} {n : ℕ} {f : ℕ → H} {A : Addr} (h : Inv s n f A) (leaf : Leaf H) (hn : n + 1 ≤ 2 ^ 62) :
    ∃ (s' : Pollard H) (A' : Addr), Acc.addOne vt s leaf = .ok s' ∧ Inv s' (n + 1) (Function.update f n leaf.1) A' ∧
      s'.posmap = addPos s.posmap n leaf ∧
      (∀ x, Flag s'.ext (rtOf (n + 1)) A' x ↔ Flag s.ext (rtOf n) A x ∨ (x = n ∧ leaf.2 = true)) ∧
      (Sparse s.ext n A → Sparse s'.ext (n + 1) A') ∧
      (∀ y, y / 2 ≠ n / 2 → A' 0 y = A 0 y) ∧
      (n % 2 = 1 → ∀ y, y / 2 = n / 2 →
        ((A' 0 y).isSome ↔ Flag s'.ext (rtOf (n + 1)) A' y ∨ Flag s'.ext (rtOf (n + 1)) A' (y ^^^ 1))) ∧
      (Tight n A → Tight (n + 1) A') := by
  have hn62 : n ≤ 2 ^ 62 := by omega
  have hR := numRows_le_62 hn62
  obtain ⟨t, ht, hbits, htz⟩ := exists_zero_bit (n := n) (by omega)
  obtain ⟨s1, a1, a2, a3, a4, a5, a6⟩ := newLeaf_ok h leaf
  obtain ⟨s2, A2, b1, b2, b3, b4, b5, b6, b7, b8⟩ := mergeLoop_ok hn ht hbits htz t 0 66 s1 _ (rootNode s.ext.length n)
    (by omega) (by omega) a2 (by rw [pow_zero, Nat.div_one, upd_self]; rfl) (by simp [posOf_zero, rootNode])
  have hrl : s.roots.length = (rowsFrom n 0).length := by
    have := congrArg List.length h.ph.roots.node
    rw [rowsFrom_zero]; simpa [rootCoords] using this
  have hcoords : midCoords n t = rootCoords (n + 1) := by
    unfold midCoords rootCoords
    rw [treeRows_succ ht hbits htz, List.map_append]
    congr 1
    · apply List.map_congr_left
      intro q hq
      obtain ⟨h1, h2, h3⟩ := mem_rowsFrom.1 hq
      have hq : t < q := by
        rcases Nat.lt_or_eq_of_le h1 with g | g
        · exact g
        · subst g; rw [htz] at h3; simp at h3
      rw [rootIdx_le, rootIdx_le, succ_div_above hbits htz (by omega)]
    · have h2 := testBit_div (n := n) (t := t)
      rw [htz] at h2
      rw [List.map_singleton, rootIdx_le, succ_div_above hbits htz (by omega), h2]
      simp
  have hpos2 : 0 < s2.ext.length := by
    obtain ⟨p, hp⟩ := Option.isSome_iff_exists.1 (b2.shape.root _ _ (midRt_new n t))
    have := (b2.shape.bnd _ _ _ hp).2; omega
  -- the state with the new leaf count
  have hinv : ∀ roots', roots'.map (fun r => r.e.node) = s2.roots.map (fun r => r.e.node) →
      roots'.map (fun r => r.e.sib) = s2.roots.map (fun r => r.e.sib) → (∀ r ∈ roots', r.up = []) →
      Inv { s2 with numLeaves := n + 1, roots := roots' } (n + 1) (Function.update f n leaf.1) A2 := by
    intro roots' h1 h2 h3
    refine ⟨⟨rfl, ?_, b2.hashed, ?_, hpos2⟩, ?_⟩
    · rw [← midRt_end hbits htz]; exact b2.shape
    · rw [← hcoords]; exact b2.roots.mapPos h1 h2 h3
    · intro q y hy
      rcases Nat.lt_or_ge t q with hq | hq
      · rw [succ_div_above hbits htz hq] at hy
        exact b2.high q y hq hy
      · exact b2.low q y hq hy
  have hfl : ∀ x, Flag s2.ext (rtOf (n + 1)) A2 x ↔ Flag s.ext (rtOf n) A x ∨ (x = n ∧ leaf.2 = true) := by
    intro x
    rw [← midRt_end hbits htz, b4, a4]
  have hspa : Sparse s.ext n A → Sparse s2.ext (n + 1) A2 := by
    intro hsp q x hx
    have h1 := b5 (a5 hsp) q x (by
      unfold Mid
      split
      · exact hx
      · rw [succ_div_above hbits htz (by omega)] at hx; exact hx)
    rw [midRt_end hbits htz] at h1
    exact h1
  have hti : Tight n A → Tight (n + 1) A2 := by
    intro hT q x hx
    refine b8 (a6 hT) q x ?_
    unfold Mid
    split
    · exact hx
    · rw [succ_div_above hbits htz (by omega)] at hx; exact hx
  have hsame : ∀ y, y / 2 ≠ n / 2 → A2 0 y = A 0 y := by
    intro y hy
    rw [b6 y (by tauto), upd_ne (by rintro ⟨-, rfl⟩; exact hy rfl)]
  have hpair : n % 2 = 1 → ∀ y, y / 2 = n / 2 →
      ((A2 0 y).isSome ↔ Flag s2.ext (rtOf (n + 1)) A2 y ∨ Flag s2.ext (rtOf (n + 1)) A2 (y ^^^ 1)) := by
    intro ho y hy
    rw [b7 rfl ho y hy, ← b4, ← b4, midRt_end hbits htz]
  unfold Acc.addOne
  have a1' : vt.newLeaf s leaf = _ := a1
  simp only [h.ph.num]
  rw [a1', ok_bind]
  simp only
  rw [hrl, b1, ok_bind]
  simp only [b2.num]
  rw [wrap64_ok (by omega)]
  by_cases hgrow : St.numRows n = 0 ∨ St.numRows n = St.numRows (n + 1)
  · rw [if_pos hgrow]
    exact ⟨_, A2, rfl, hinv s2.roots rfl rfl b2.roots.up, b3.trans a3, hfl, hspa, hsame, hpair, hti⟩
  · rw [if_neg hgrow]
    push Not at hgrow
    obtain ⟨g1, g2⟩ := hgrow
    -- a full forest grows by a row, so that there are two trees
    have hnR : n ≤ 2 ^ St.numRows n := le_two_pow_numRows (by omega)
    have hfull : n = 2 ^ St.numRows n := by
      by_contra hne
      apply g2
      have h1 : St.numRows (n + 1) ≤ St.numRows n := (numRows_le_iff (by omega) _).2 (by omega)
      have h2 : St.numRows n ≤ St.numRows (n + 1) :=
        (numRows_le_iff (by omega) _).2 (le_trans (by omega) (le_two_pow_numRows (n := n + 1) (by omega)))
      omega
    have hlen : s2.roots.length ≥ 2 := by
      have hl := congrArg List.length b2.roots.node
      unfold midCoords at hl
      simp only [List.length_map, List.length_append, List.length_singleton] at hl
      have hb0 : n.testBit 0 = false := by
        rw [hfull, Nat.testBit_two_pow]; simp; omega
      have ht0 : t = 0 := by
        by_contra hne
        have := hbits 0 (by omega)
        rw [hb0] at this; simp at this
      have hmem : St.numRows n ∈ rowsFrom n t := by
        rw [mem_rowsFrom]
        refine ⟨by omega, by omega, ?_⟩
        rw [hfull, Nat.testBit_two_pow, ← hfull]; simp
      have := List.length_pos_of_mem hmem
      omega
    have hR' : St.numRows (n + 1) ≤ 62 := numRows_le_62 (by omega)
    match hrs : s2.roots, hlen with
    | r0 :: r1 :: rest, _ =>
      simp only
      rw [rootPosition_eq (n := n + 1) (by omega) (Nat.zero_le _), ok_bind,
        rootPosition_eq (n := n + 1) (by omega) (by omega), ok_bind]
      refine ⟨_, A2, rfl, hinv _ ?_ ?_ ?_, b3.trans a3, hfl, hspa, hsame, hpair, hti⟩
      · rw [hrs]; rfl
      · rw [hrs]; rfl
      · have hup := b2.roots.up
        rw [hrs] at hup
        intro r hr
        simp only [List.mem_cons] at hr
        rcases hr with rfl | rfl | hr
        · exact hup r0 (by simp)
        · exact hup r1 (by simp)
        · exact hup r (by simp [hr])

/-- The position map after adding leaves from position `n` on. -/
def addPosAll (m : PosMap H) (n : ℕ) : List (Leaf H) → PosMap H
  | [] => m
  | l :: ls => addPosAll (addPos m n l) (n + 1) ls

theorem add_ok : ∀ (leaves : List (Leaf H)) (s : Pollard H) (n : ℕ) (f : ℕ → H) (A : Addr),
    Inv s n f A → n + leaves.length ≤ 2 ^ 62 →
    ∃ (s' : Pollard H) (A' : Addr), Acc.add vt s leaves = .ok s' ∧
      Inv s' (n + leaves.length) (Ram.addLeaves f n (leaves.map Prod.fst)) A' ∧ s'.posmap = addPosAll s.posmap n leaves ∧
      (∀ x, Flag s'.ext (rtOf (n + leaves.length)) A' x ↔ Flag s.ext (rtOf n) A x ∨
        ∃ (i : ℕ) (l : Leaf H), leaves[i]? = some l ∧ l.2 = true ∧ x = n + i) ∧
      (Sparse s.ext n A → Sparse s'.ext (n + leaves.length) A') ∧
      (∀ y, y < n → y ^^^ 1 < n → A' 0 y = A 0 y) ∧
      (∀ y, y < n + leaves.length → y ^^^ 1 < n + leaves.length → ¬ (y < n ∧ y ^^^ 1 < n) →
        ((A' 0 y).isSome ↔ Flag s'.ext (rtOf (n + leaves.length)) A' y ∨ Flag s'.ext (rtOf (n + leaves.length)) A' (y ^^^ 1))) ∧
      (Tight n A → Tight (n + leaves.length) A') := by
  intro leaves
  induction leaves with
  | nil => intro s n f A h _; exact ⟨s, A, rfl, h, rfl, fun _ => by simp, fun h => h, fun _ _ _ => rfl, fun y h1 h2 h3 => absurd ⟨h1, h2⟩ h3, fun h => h⟩
  | cons l ls ih =>
    intro s n f A h hlen
    simp only [List.length_cons] at hlen
    obtain ⟨s1, A1, a1, a2, a3, a4, a5, a6, a7, a8⟩ := addOne_ok h l (by omega)
    obtain ⟨s2, A2, b1, b2, b3, b4, b5, b6, b7, b8⟩ := ih s1 (n + 1) _ A1 a2 (by omega)
    have hn' : n + 1 + ls.length = n + (l :: ls).length := by rw [List.length_cons]; omega
    rw [hn'] at b4 b5 b7 b8
    refine ⟨s2, A2, ?_, ?_, ?_, ?_, fun h => b5 (a5 h), ?_, ?_, fun h => b8 (a8 h)⟩
    rotate_right 2
    · intro y h1 h2
      rw [b6 y (by omega) (by omega)]
      refine a6 y ?_
      have := sb_div y
      have h3 := xor_one_cases y
      split at h3 <;> omega
    · intro y h1 h2 h3
      by_cases hc : y < n + 1 ∧ y ^^^ 1 < n + 1
      · have hx := xor_one_cases y
        have e : n % 2 = 1 ∧ y / 2 = n / 2 := by split at hx <;> omega
        rw [b6 y hc.1 hc.2, a7 e.1 y e.2, b4, b4]
        have hno : ∀ x, x < n + 1 → ¬ ∃ (i : ℕ) (l : Leaf H), ls[i]? = some l ∧ l.2 = true ∧ x = n + 1 + i := by
          rintro x hx ⟨i, -, -, -, h5⟩
          omega
        constructor
        · rintro (h | h)
          · exact .inl (.inl h)
          · exact .inr (.inl h)
        · rintro ((h | h) | (h | h))
          · exact .inl h
          · exact absurd h (hno _ hc.1)
          · exact .inr h
          · exact absurd h (hno _ hc.2)
      · exact b7 y h1 h2 hc
    · unfold Acc.add at b1 ⊢
      rw [List.foldlM_cons, a1, ok_bind, b1]
    · rw [List.length_cons, List.map_cons, Ram.addLeaves, show n + (ls.length + 1) = n + 1 + ls.length by omega]
      exact b2
    · rw [b3, a3]; rfl
    · intro x
      rw [b4, a4, or_assoc]
      apply or_congr_right
      constructor
      · rintro (⟨rfl, hl⟩ | ⟨i, l', hi, hl, rfl⟩)
        · exact ⟨0, l, rfl, hl, rfl⟩
        · exact ⟨i + 1, l', by simpa using hi, hl, by omega⟩
      · rintro ⟨i, l', hi, hl, rfl⟩
        cases i with
        | zero =>
          obtain rfl : l = l' := by simpa using hi
          exact .inl ⟨rfl, hl⟩
        | succ i => exact .inr ⟨i, l', by simpa using hi, hl, by omega⟩

end Pol
end Utreexo
