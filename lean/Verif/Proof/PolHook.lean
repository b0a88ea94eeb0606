import Verif.Proof.PolFinal
import Verif.Proof.RamLarge

/-!
# Removing a single leaf that was not verified

`Pollard::SwapSubTrees` hooks in a sibling object that is missing (`hook_in_sibling`). In the rows below the smallest tree's
root the only swaps of a removal of one leaf exchange a deleted node with its sibling, so it does not matter there whether the
deleted nodes have objects.
-/

set_option linter.unusedSectionVars false

namespace Utreexo
open Spec Equiv

variable {H : Type} [DecidableEq H] [HashOps H]

/-- The swaps of one leaf's removal in the rows below the root of the smallest tree. -/
theorem single_ops {n t r R : ℕ} (hi : ∀ r, RowInv n (n - 1) [t] r) (hnR : n ≤ 2 ^ R) (hr : r < R) (hdiv : n % 2 ^ (r + 1) = 0)
    (ht : t < n) :
    colDst (n - 1) r (sg n (n - 1) [t] R (r + 1)) = 2 * (t / 2 ^ (r + 1)) ∧
    opsAt n (n - 1) [t] r (sg n (n - 1) [t] R (r + 1)) =
      if t / 2 ^ r % 2 = 0 then [(t / 2 ^ r ^^^ 1, t / 2 ^ r, true)] else [] := by
  have hd := Dn_single hdiv ht r (by omega)
  have hd' := Dn_single hdiv ht (r + 1) le_rfl
  have hS := sg_sinks hi hnR (r := r + 1) hr
  have hz : t / 2 ^ (r + 1) = t / 2 ^ r / 2 := (Pol.div_div_two t r).symm
  set x := t / 2 ^ r with hx
  set z := t / 2 ^ (r + 1) with hzd
  generalize hρ : sg n (n - 1) [t] R (r + 1) = ρ at *
  have c0 := (hi r).count
  have c1 := (hi (r + 1)).count
  rw [hd] at c0
  rw [hd'] at c1
  simp only [List.length_cons, List.length_nil, zero_add] at c0 c1
  have hm := (hS.mem z).1 (by rw [hd']; simp)
  have e1 : ρ z = (n - 1) / 2 ^ (r + 1) := by omega
  have hcol : colDst (n - 1) r ρ = 2 * z := by
    apply (up 1 ρ).injective
    rw [colDst_spec, up1_apply]
    rw [show 2 * z / 2 = z by omega, e1]; omega
  refine ⟨hcol, ?_⟩
  have hok := (hi r).ok
  rw [hd, hd'] at hok
  have hbit : n.testBit r = false := by
    obtain ⟨m, rfl⟩ := Nat.dvd_of_mod_eq_zero hdiv
    rw [Nat.testBit_eq_decide_div_mod_eq, show 2 ^ (r + 1) * m = 2 ^ r * (2 * m) by rw [pow_succ]; ring,
      Nat.mul_div_cancel_left _ (by positivity)]
    simp
  have hSn : Sn n [t] r = [] := by
    apply List.eq_nil_iff_forall_not_mem.2
    rintro ⟨a, w⟩ hp
    obtain ⟨h1, -, -, h4⟩ := hok.swaps a w hp
    rw [List.mem_singleton] at h1
    subst h1
    exact h4 (.inl (by rw [← hz]; simp))
  have hX : Xn n [t] r = some (x ^^^ 1) := by
    have hc := hok.card
    rw [hbit] at hc
    simp only [List.length_cons, List.length_nil, zero_add, Bool.toNat_false] at hc
    cases hX : Xn n [t] r with
    | none => rw [hX] at hc; simp at hc
    | some a =>
      obtain ⟨h1, h2, -⟩ := hok.col a hX
      rw [hbit] at h1
      simp only [List.mem_singleton, Bool.false_eq_true, false_and, or_false] at h1 h2
      rw [Option.some.injEq, xor_one_cases]
      split <;> omega
  unfold opsAt
  rw [hSn, hX, hcol]
  simp only [List.map_nil, List.nil_append]
  rw [xor_one_cases]
  by_cases he : x % 2 = 0
  · simp only [he, if_true]
    rw [if_neg (by omega)]
    simp only [List.cons.injEq, Prod.mk.injEq, and_true, true_and]
    omega
  · simp only [he, if_false]
    rw [if_pos (by omega)]

/-- Hashes with one entry replaced. -/
def setCell (c : ℕ → ℕ → H) (r i : ℕ) (v : H) : ℕ → ℕ → H := fun s x => if s = r ∧ x = i then v else c s x

/-- The hash of a deleted node does not matter. -/
theorem DirtInv.setCell {n n' : ℕ} {D : List ℕ} {R r : ℕ} {c : ℕ → ℕ → H} {Dt : List ℕ} (hi : ∀ r, RowInv n n' D r)
    (hn : n ≤ 2 ^ R) (hr : r ≤ R) (h : DirtInv n n' D R r c Dt) {d : ℕ} (hd : d ∈ Dn n D r) (v : H) :
    DirtInv n n' D R r (setCell c r d v) Dt := by
  have hS := sg_sinks hi hn hr
  refine ⟨?_, ?_, h.bound⟩
  · intro s hs x hx
    by_cases h0 : s = 0
    · subst h0; rfl
    · have e0 : Utreexo.setCell c r d v 0 = c 0 := by
        funext y; unfold Utreexo.setCell; rw [if_neg (by omega)]
      have e1 : Utreexo.setCell c r d v s x = c s x := by
        unfold Utreexo.setCell
        rw [if_neg]
        rintro ⟨rfl, rfl⟩
        rw [Nat.sub_self, up_zero] at hx
        have := (hS.mem x).1 hd
        omega
      rw [e0, e1]
      exact h.low s hs x hx
  · intro s hs x hx
    have e1 : Utreexo.setCell c r d v s x = c s x := by
      unfold Utreexo.setCell; rw [if_neg (by omega)]
    rw [e1]
    rcases h.high s hs x hx with h1 | h1
    · by_cases h2 : d / 2 ^ (s - r) = x
      · exact .inr (.inr ⟨d, hd, h2⟩)
      · left
        rw [h1]
        apply mt_congr
        intro y hy
        unfold Utreexo.setCell
        rw [if_neg]
        rintro ⟨rfl, rfl⟩
        rw [Nat.sub_zero] at h2
        exact h2 hy
    · exact .inr h1

namespace Pol

/-- A node with a holder has holders above. -/
theorem Shape.holder_up {heap : List (INode H)} {n : ℕ} {A : Addr} (hs : Shape heap (rtOf n) A) {q y : ℕ}
    (h : (holder (rtOf n) A q y).isSome) (hy : y / 2 < n / 2 ^ (q + 1)) : (holder (rtOf n) A (q + 1) (y / 2)).isSome := by
  have f1 := rtOf_false hy
  have f2 : rtOf n q (y ^^^ 1) = false := rtOf_false (by rw [sb_div]; exact hy)
  rw [holder_sib f1 f2] at h
  obtain ⟨p, hp⟩ := Option.isSome_iff_exists.1 h
  obtain ⟨p', hp'⟩ := hs.holder_of hp f2
  rw [sb_div] at hp'
  rw [hp']; rfl

theorem Shape.holders {heap : List (INode H)} {n : ℕ} {A : Addr} (hs : Shape heap (rtOf n) A) {r i : ℕ}
    (h : (holder (rtOf n) A r i).isSome) : ∀ k, i / 2 ^ k < n / 2 ^ (r + k) → (holder (rtOf n) A (r + k) (i / 2 ^ k)).isSome := by
  intro k
  induction k with
  | zero => intro _; simpa using h
  | succ k ih =>
    intro hk
    rw [← div_div_two] at hk ⊢
    refine hs.holder_up (ih ?_) hk
    rw [← add_assoc, div_succ_row] at hk
    omega

/-- `hook_in_sibling`: a swap with a sibling that has no object is a swap after giving it one. -/
theorem PH.hook {s : Pollard H} {n : ℕ} {A : Addr} {c : ℕ → ℕ → H} (h : PH s n A c) (hn : n ≤ 2 ^ 62)
    {r i j : ℕ} (hij : i ^^^ 1 = j) (hp : i / 2 < n / 2 ^ (r + 1)) (hai : (A r i).isSome) (hj : A r j = none) :
    ∃ heap, PH { s with ext := heap } n (upd A r j (some s.ext.length)) (setCell c r j HashOps.zero) ∧
      (∀ q x b, q ≤ r → nz heap (holder (rtOf n) (upd A r j (some s.ext.length)) q x) b = nz s.ext (holder (rtOf n) A q x) b) ∧
      swapSubTrees s (posOf (St.numRows n) r i) (posOf (St.numRows n) r j) =
        swapSubTrees { s with ext := heap } (posOf (St.numRows n) r i) (posOf (St.numRows n) r j) := by
  have hR := numRows_le_62 hn
  have hib : i < n / 2 ^ r := by rw [div_succ_row] at hp; omega
  obtain ⟨r1, i1⟩ := row_le hn hib
  have fi := rtOf_false hp
  have hdiv : j / 2 = i / 2 := by rw [← hij, sb_div]
  have fj : rtOf n r j = false := rtOf_false (by rw [hdiv]; exact hp)
  obtain ⟨ai, hai⟩ := Option.isSome_iff_exists.1 hai
  obtain ⟨hp', hhp⟩ := h.shape.holder_of hai fi
  obtain ⟨z, hzz⟩ := h.shape.hget hhp
  have hjx : 2 * (i / 2) + j % 2 = j := by omega
  have hsh := h.shape.alloc (h0 := HashOps.zero) hhp hzz (b := j % 2) (by omega) (by rw [hjx]; exact hj) (by rw [hjx]; exact fj)
  rw [hjx] at hsh
  set heap := (s.ext ++ [fresh HashOps.zero]).set hp' (INode.setNiece z (j % 2) (some s.ext.length)) with hheap
  set A2 := upd A r j (some s.ext.length) with hA2
  have hpl := lt_of_get hzz
  have hlt : ∀ q y p, A q y = some p → p < s.ext.length := fun q y p hp => (h.shape.bnd q y p hp).2
  obtain ⟨jh, hjh⟩ := holder_addr hhp
  have hPH : PH { s with ext := heap } n A2 (setCell c r j HashOps.zero) := by
    refine ⟨h.num, hsh, ?_, ?_, by show 0 < heap.length; rw [hheap]; simp⟩
    · intro q x p hp
      show hz heap p = _
      rw [hheap, hz_set (by simp; omega)]
      by_cases e : q = r ∧ x = j
      · obtain ⟨rfl, rfl⟩ := e
        rw [hA2, upd_self, Option.some.injEq] at hp
        subst hp
        rw [if_neg (by omega)]
        unfold hz setCell fresh
        simp
      · rw [hA2, upd_ne e] at hp
        have hc := h.hashed q x p hp
        have hpl := hlt _ _ _ hp
        unfold setCell
        rw [if_neg e]
        split
        · rename_i e'
          subst e'
          unfold hz at hc
          rw [hzz] at hc
          simp only [Option.map_some, Option.some.injEq] at hc
          rw [← hc]
          unfold INode.setNiece
          split <;> rfl
        · unfold Pol.hz
          rw [List.getElem?_append_left hpl]
          exact hc
    · apply h.roots.congr
      intro x hx
      have := mem_rootCoords hx
      rw [hA2, upd_ne]
      rintro ⟨e1, e2⟩
      rw [e1, e2, fj] at this
      simp at this
  refine ⟨heap, hPH, ?_, ?_⟩
  · intro q x b hq
    by_cases e : q = r ∧ x = i
    · obtain ⟨rfl, rfl⟩ := e
      rw [holder_sib fi (by rw [hij]; exact fj), holder_sib fi (by rw [hij]; exact fj), hij, hj, hA2, upd_self]
      have : heap[s.ext.length]? = some (fresh HashOps.zero) := by
        rw [hheap, List.getElem?_set_ne (by omega)]; simp
      rw [nz_some this]
      unfold fresh INode.niece
      simp [nz]
    · have hh : holder (rtOf n) A2 q x = holder (rtOf n) A q x := by
        by_cases hqr : q = r
        · subst hqr
          unfold holder
          have hne : x ^^^ 1 ≠ j := by
            rw [← hij]; intro hc; exact e ⟨rfl, sb_inj.1 hc⟩
          by_cases hxj : x = j
          · subst hxj
            rw [fj]
            simp only [Bool.false_eq_true, if_false]
            rw [hA2, upd_ne (by tauto)]
          · rw [hA2, upd_ne (by tauto), upd_ne (by tauto)]
        · exact holder_upd_row hqr
      rw [hh]
      cases ho : holder (rtOf n) A q x with
      | none => rfl
      | some p =>
        obtain ⟨w, hw⟩ := holder_addr ho
        have hpne : p ≠ hp' := by
          rintro rfl
          have := (h.shape.inj _ _ _ _ _ hw hjh).1
          omega
        rw [hheap, nz_set_ne hpne, nz_append (hlt _ _ _ hw)]
  · obtain ⟨ti, pathi, ti1, ti2, gi, gi'⟩ := readSiblings_ok h.num hn (h.shape.kidsFrom r) hlt h.roots hib
    obtain ⟨tj, pathj, tj1, tj2, gj, gj'⟩ := readSiblings_ok (s := { s with ext := heap }) h.num hn (hPH.shape.kidsFrom r)
      (fun q y p hp => (hPH.shape.bnd q y p hp).2) hPH.roots hib
    obtain rfl := inTree_unique ti2 tj2
    have hti : r < ti := by
      rcases Nat.eq_or_lt_of_le ti1 with he | hl
      · exfalso
        have := inTree_root ti2 ti1
        rw [← he, Nat.sub_self, pow_zero, Nat.div_one] at this
        have h3 : rtOf n r i = true := rtOf_true.2 ⟨by rw [he]; exact ti2.1, this⟩
        rw [fi] at h3; simp at h3
      · exact hl
    have hup : ∀ q, r < q → q ≤ ti → (holder (rtOf n) A q (i / 2 ^ (q - r))).isSome := by
      intro q h1 h2
      have := h.shape.holders (r := r + 1) (i := i / 2) (by rw [hhp]; rfl) (q - (r + 1)) (by
        have := anc_in ti2 h1.le h2
        rw [show r + 1 + (q - (r + 1)) = q by omega, ← div_pow_sub h1]; exact this)
      rw [show r + 1 + (q - (r + 1)) = q by omega, ← div_pow_sub h1] at this
      exact this
    have hab : ∀ q y, r < q → holder (rtOf n) A2 q y = holder (rtOf n) A q y := fun q y hq => holder_upd_row (by omega)
    rw [gi' hup] at gi
    rw [gj' (fun q h1 h2 => by rw [hab _ _ h1]; exact hup q h1 h2)] at gj
    have habv : Above A2 A (r + 1) := by
      intro q y hq
      rw [hA2, upd_ne (by omega)]
    rw [habv.upPath _ _ _ _ _ le_rfl] at gj
    have hi1 : A2 r i = some ai := by
      rw [hA2, upd_ne, hai]
      rintro ⟨-, e⟩
      rw [← hij] at e
      exact sb_ne i e.symm
    have hi2 : holder (rtOf n) A2 r i = some s.ext.length := by
      rw [holder_sib fi (by rw [hij]; exact fj), hij, hA2, upd_self]
    have hi3 : holder (rtOf n) A r i = none := by
      rw [holder_sib fi (by rw [hij]; exact fj), hij, hj]
    rw [hai, hi3] at gi
    rw [hi1, hi2] at gj
    have hs : St.sibling (posOf (St.numRows n) r i) = posOf (St.numRows n) r j := by
      rw [sibling_posOf r1, hij]
    have hpar : St.sibling (posOf (St.numRows n) r i % 2) = j % 2 := by
      have : posOf (St.numRows n) r j % 2 = j % 2 := by
        obtain ⟨k, hk⟩ := rowStart_even r1
        unfold posOf
        rw [hk]; omega
      rw [← this, ← hs]
      unfold St.sibling
      rw [xor_one_cases, xor_one_cases]
      split <;> split <;> omega
    rw [show ti - r = ti - (r + 1) + 1 by omega, upPath] at gi gj
    have hk : hookIn s.ext (pentry (St.numRows n) (rtOf n) A (r + 1) (i / 2) ::
        upPath (St.numRows n) (rtOf n) A (ti - (r + 1)) (r + 1 + 1) (i / 2 / 2)) none (posOf (St.numRows n) r i) =
        .ok (some s.ext.length, heap) := by
      unfold hookIn
      simp only
      have e1 : (pentry (St.numRows n) (rtOf n) A (r + 1) (i / 2)).sib = some hp' := hhp
      have e2 : (s.ext ++ [fresh HashOps.zero])[hp']? = some z := by
        rw [List.getElem?_append_left hpl]; exact hzz
      rw [e1]
      have e3 : deref (s.ext ++ [({ hash := HashOps.zero, n0 := none, n1 := none } : INode H)]) (some hp') = .ok z := deref_ok e2
      rw [e3, ok_bind, hpar]
      have e4 : store (s.ext ++ [({ hash := HashOps.zero, n0 := none, n1 := none } : INode H)]) (some hp')
          (INode.setNiece z (j % 2) (some s.ext.length)) = .ok heap := store_ok (by simp; omega) _
      rw [e4, ok_bind]
      rfl
    unfold swapSubTrees
    rw [gi, ok_bind, gj, ok_bind]
    simp only
    rw [hk, ok_bind]
    simp only [hookIn]
    rw [ok_bind]

/-- The swap of a node with its sibling, whether the sibling has an object or not. -/
theorem PH.run_hook {s : Pollard H} {n : ℕ} {A : Addr} {c : ℕ → ℕ → H} (h : PH s n A c) (hn : n ≤ 2 ^ 62)
    {r i j : ℕ} (hij : i ^^^ 1 = j) (hp : i / 2 < n / 2 ^ (r + 1)) (hai : (A r i).isSome) :
    ∃ (s' : Pollard H) (A2 : Addr) (c2 : ℕ → ℕ → H),
      Acc.runSwaps vt (posOps (St.numRows n) r [(i, j, true)]) s [] = .ok (s', []) ∧
      PH s' n (permAddr r (swap i j) A2) (permCells r (swap i j) c2) ∧ (A2 r j).isSome ∧
      (∀ q x, ¬ (q = r ∧ x = j) → A2 q x = A q x) ∧ (c2 = c ∨ c2 = setCell c r j HashOps.zero) ∧
      (∀ q x b, q ≤ r → nz s'.ext (holder (rtOf n) (permAddr r (swap i j) A2) q x) b =
        nz s.ext (holder (rtOf n) A q (up (r - q) (swap i j) x)) b) ∧
      ∀ k, (PosMap.find s'.posmap k).isSome = (PosMap.find s.posmap k).isSome := by
  have hib : i < n / 2 ^ r := by rw [div_succ_row] at hp; omega
  have hjb : j < n / 2 ^ r := by rw [div_succ_row] at hp; rw [← hij, xor_one_cases]; split <;> omega
  have hne : i ≠ j := by rw [← hij]; exact (sb_ne i).symm
  have fi := rtOf_false hp
  have fj : rtOf n r j = false := rtOf_false (by rw [← hij, sb_div]; exact hp)
  have hji : j ^^^ 1 = i := by rw [← hij, sb_sb]
  obtain ⟨m, u1, u2, -⟩ := h.updatePosSubtree_ok hn hib hjb hne
  have h' : PH { s with posmap := m } n A c := ⟨h.num, h.shape, h.hashed, h.roots, h.pos⟩
  have hpres : ∀ {A' : Addr}, (A' r i).isSome → (A' r j).isSome → Pres n A' r i ∧ Pres n A' r j := by
    intro A' h1 h2
    refine ⟨⟨h1, ?_⟩, h2, ?_⟩
    · rw [holder_sib fi (by rw [hij]; exact fj), hij]; exact h2
    · rw [holder_sib fj (by rw [hji]; exact fi), hji]; exact h1
  have hrun : ∀ {d : Option PNode} {s2 : Pollard H},
      swapSubTrees { s with posmap := m } (posOf (St.numRows n) r i) (posOf (St.numRows n) r j) = .ok (d, s2) →
      Acc.runSwaps vt (posOps (St.numRows n) r [(i, j, true)]) s [] = .ok (s2, []) := by
    intro d s2 hw
    unfold posOps
    rw [List.map_cons, Acc.runSwaps]
    simp only
    rw [u1, ok_bind]
    show (swapSubTrees _ _ _ >>= _) = _
    rw [hw, ok_bind]
    simp [Acc.runSwaps]
  cases hj : A r j with
  | some p =>
    obtain ⟨p1, p2⟩ := hpres hai (by rw [hj]; rfl)
    obtain ⟨d, s2, w1, w2, -, w4, w5, -⟩ := h'.swap_ok hn hib hjb hne p1 p2
    exact ⟨s2, A, c, hrun w1, w2, by rw [hj]; rfl, fun _ _ _ => rfl, .inl rfl, w5, fun k => by rw [w4]; exact u2 k⟩
  | none =>
    obtain ⟨heap, g1, g2, g3⟩ := h'.hook hn hij hp hai hj
    have e1 : upd A r j (some s.ext.length) r j = some s.ext.length := upd_self _ _ _ _
    have e2 : upd A r j (some s.ext.length) r i = A r i := upd_ne (by tauto)
    obtain ⟨p1, p2⟩ := hpres (A' := upd A r j (some s.ext.length)) (by rw [e2]; exact hai) (by rw [e1]; rfl)
    obtain ⟨d, s2, w1, w2, -, w4, w5, -⟩ := g1.swap_ok hn hib hjb hne p1 p2
    refine ⟨s2, upd A r j (some s.ext.length), setCell c r j HashOps.zero, hrun (by rw [g3]; exact w1), w2, by rw [e1]; rfl,
      fun q x hq => upd_ne hq, .inr rfl, ?_, fun k => by rw [w4]; exact u2 k⟩
    intro q x b hq
    rw [w5 q x b hq]
    exact g2 q _ b hq

/-- The iteration of a row below the root of the smallest tree. -/
theorem row_hook {n t : ℕ} (hn : n ≤ 2 ^ 62) (hi : ∀ r, RowInv n (n - 1) [t] r) (ht : t < n) {A0 : Addr} {r : ℕ}
    (hdiv : n % 2 ^ (r + 1) = 0) (hr : r < St.numRows n) {s : Pollard H} {A : Addr} {c : ℕ → ℕ → H}
    (h : RowSt s n (n - 1) [t] A0 A c r []) (hk : HasKid s.ext n A r (t / 2 ^ r)) :
    ∃ (s' : Pollard H) (A' : Addr) (c' c2 : ℕ → ℕ → H),
      Acc.runSwaps vt (posOps (St.numRows n) r (opsAt n (n - 1) [t] r (sg n (n - 1) [t] (St.numRows n) (r + 1)))) s [] =
        .ok (s', []) ∧
      RowSt s' n (n - 1) [t] A0 A' c' (r + 1) [] ∧
      c' 0 = c2 0 ∘ up r (rowPerm n (n - 1) [t] r (sg n (n - 1) [t] (St.numRows n) (r + 1))).symm ∧
      (∀ x, ¬ (r = 0 ∧ x = t) → c2 0 x = c 0 x) ∧
      (∀ x, Flag s'.ext (rtOf n) A' (up r (rowPerm n (n - 1) [t] r (sg n (n - 1) [t] (St.numRows n) (r + 1))) x) ↔
        Flag s.ext (rtOf n) A x) ∧
      (∀ k, (PosMap.find s'.posmap k).isSome = (PosMap.find s.posmap k).isSome) ∧
      (@DirtInv Bool kidOps n (n - 1) [t] (St.numRows n) r (kidc s.ext (rtOf n) A) [] →
        @DirtInv Bool kidOps n (n - 1) [t] (St.numRows n) (r + 1) (kidc s'.ext (rtOf n) A') []) := by
  have hnR : n ≤ 2 ^ St.numRows n := le_two_pow_numRows (by omega)
  obtain ⟨hcol, hops⟩ := single_ops hi hnR hr hdiv ht
  have hd := Dn_single hdiv ht r (by omega)
  have hd' := Dn_single hdiv ht (r + 1) le_rfl
  have hperm := seqPerm_opsAt n (n - 1) [t] r (sg n (n - 1) [t] (St.numRows n) (r + 1))
  have hS := sg_sinks hi hnR (r := r + 1) hr
  have hz : t / 2 ^ r / 2 = t / 2 ^ (r + 1) := div_div_two t r
  have hzb : t / 2 ^ r / 2 < n / 2 ^ (r + 1) := by
    rw [hz]; exact (hi (r + 1)).bound _ (by rw [hd']; simp)
  have hxd : t / 2 ^ r ∈ Dn n [t] r := by rw [hd]; simp
  set x := t / 2 ^ r with hx
  set ρ := sg n (n - 1) [t] (St.numRows n) (r + 1) with hρ
  set P := rowPerm n (n - 1) [t] r ρ with hP
  have fx := rtOf_false hzb
  have fx' : rtOf n r (x ^^^ 1) = false := rtOf_false (by rw [sb_div]; exact hzb)
  -- the sibling has an object
  have hsib : (A r (x ^^^ 1)).isSome := by
    obtain ⟨b, -, hb⟩ := hk
    rw [holder_sib fx fx'] at hb
    cases he : A r (x ^^^ 1) with
    | some _ => rfl
    | none => rw [he] at hb; simp [nz] at hb
  -- everything follows from the objects and hashes after the swap
  suffices main : ∃ (s' : Pollard H) (A2 : Addr) (c2 : ℕ → ℕ → H),
      Acc.runSwaps vt (posOps (St.numRows n) r (opsAt n (n - 1) [t] r ρ)) s [] = .ok (s', []) ∧
      PH s' n (permAddr r P.symm A2) (permCells r P.symm c2) ∧ (A2 r (2 * (x / 2))).isSome ∧
      (∀ q y, ¬ (q = r ∧ y = x) → A2 q y = A q y) ∧ (c2 = c ∨ c2 = setCell c r x HashOps.zero) ∧
      (∀ q y b, q ≤ r → nz s'.ext (holder (rtOf n) (permAddr r P.symm A2) q y) b =
        nz s.ext (holder (rtOf n) A q (up (r - q) P.symm y)) b) ∧
      (∀ k, (PosMap.find s'.posmap k).isSome = (PosMap.find s.posmap k).isSome) by
    obtain ⟨s', A2, c2, m1, m2, m3, m4, m5, m6, m7⟩ := main
    refine ⟨s', permAddr r P.symm A2, permCells r P.symm c2, c2, m1, ⟨m2, ?_, ?_, ?_, ?_, by simp, by omega⟩, ?_, ?_, ?_, m7, ?_⟩
    · intro q y hq
      unfold permAddr
      rw [if_neg (by omega), m4 q y (by omega)]
      exact h.above q y (by omega)
    · intro _ z hz'
      rw [hd', List.mem_singleton] at hz'
      subst hz'
      refine ⟨0, by omega, ?_⟩
      have := m2.shape.kids r (2 * (x / 2)) (rtOf_false (by rw [show 2 * (x / 2) / 2 = x / 2 by omega]; exact hzb))
      rw [show 2 * (x / 2) / 2 = x / 2 by omega, show 2 * (x / 2) % 2 = 0 by omega, hz] at this
      rw [← this]
      unfold permAddr
      rw [if_neg (by omega), ← hz]
      exact m3
    · intro q hq hbit
      rcases Nat.lt_or_ge q r with hlt | hge
      · have h1 := h.new q hlt hbit
        unfold permAddr
        rw [if_pos hlt, m4 q _ (by omega)]
        have e : (up (r - q) P.symm) ((up (r + 1 - q) ρ).symm (rootIdx (n - 1) q)) =
            (up (r - q) (sg n (n - 1) [t] (St.numRows n) r)).symm (rootIdx (n - 1) q) := by
          rw [sg_step _ _ _ hr, up_mul, up_up, show r - q + 1 = r + 1 - q by omega]
          rfl
        rw [e]; exact h1
      · have : q = r := by omega
        subst this
        rw [show q + 1 - q = 1 by omega]
        show (permAddr q P.symm A2 q (colDst (n - 1) q ρ)).isSome
        rw [hcol, ← hz]
        unfold permAddr
        rw [if_neg (by omega)]
        exact m3
    · have hdirt : DirtInv n (n - 1) [t] (St.numRows n) r c2 [] := by
        rcases m5 with rfl | rfl
        · exact h.dirt
        · exact h.dirt.setCell hi hnR (by omega) hxd _
      have := dirt_step (Dt' := []) (next := []) hi hnR hr hdirt (by
        intro d
        rw [hops]
        split <;> simp) (by simp)
      have e : rehashCells r [] (permCells r P.symm c2) = permCells r P.symm c2 := by funext q y; simp [rehashCells]
      rw [e] at this
      exact this
    · funext y; simp [permCells]
    · intro y hy
      rcases m5 with rfl | rfl
      · rfl
      · unfold setCell
        rw [if_neg]
        rintro ⟨h1, h2⟩
        subst h1
        simp only [pow_zero, Nat.div_one] at hx
        exact hy ⟨rfl, by omega⟩
    · intro y
      unfold Flag
      rw [m6 0 _ 0 (Nat.zero_le _), Nat.sub_zero, up_symm_up]
    · intro hK
      have e2 : kidc s'.ext (rtOf n) (permAddr r P.symm A2) = permCells r P.symm (kidc s.ext (rtOf n) A) := by
        funext q z
        unfold permCells
        cases q with
        | zero =>
          rw [if_pos (Nat.zero_le _)]
          simp only [kidc]
          rw [m6 0 z 0 (Nat.zero_le _)]
        | succ q =>
          simp only [kidc, permAddr]
          by_cases hq : q < r
          · rw [if_pos hq, if_pos hq, if_pos (by omega)]
            have e : r - q = r - (q + 1) + 1 := by omega
            have h0 := up_succ_two (r - (q + 1)) P.symm z 0 (by omega)
            have h1 := up_succ_two (r - (q + 1)) P.symm z 1 (by omega)
            rw [add_zero, add_zero] at h0
            rw [e, h0, h1, m4 q _ (by omega), m4 q _ (by omega)]
          · rw [if_neg hq, if_neg hq, if_neg (by omega)]
            by_cases hzx : q = r ∧ z = x / 2
            · obtain ⟨rfl, rfl⟩ := hzx
              rw [m3]
              rcases Nat.mod_two_eq_zero_or_one x with he | he
              · have : x ^^^ 1 = 2 * (x / 2) + 1 := by rw [xor_one_cases, if_pos he]; omega
                rw [← this, hsib]; simp
              · have : x ^^^ 1 = 2 * (x / 2) := by rw [xor_one_cases, if_neg (by omega)]; omega
                rw [← this, hsib]; simp
            · rw [m4 q _ (by omega), m4 q _ (by omega)]
      rw [e2]
      have := @dirt_step Bool kidOps _ _ _ _ _ _ [] [] [] hi hnR hr hK (by
        intro d
        rw [hops]
        split <;> simp) (by simp)
      have e : @rehashCells Bool kidOps r [] (permCells r P.symm (kidc s.ext (rtOf n) A)) =
          permCells r P.symm (kidc s.ext (rtOf n) A) := by funext q y; simp [rehashCells]
      rw [e] at this
      exact this
  by_cases he : x % 2 = 0
  · rw [if_pos he] at hops
    rw [hops] at hperm ⊢
    have hPs : P = swap (x ^^^ 1) x := by rw [← hperm]; rfl
    have hPs' : P.symm = swap (x ^^^ 1) x := by rw [hPs]; rfl
    obtain ⟨s', A2, c2, g1, g2, g3, g4, g5, g6, g7⟩ := h.ph.run_hook hn (i := x ^^^ 1) (j := x) (sb_sb x)
      (by rw [sb_div]; exact hzb) hsib
    rw [hPs']
    exact ⟨s', A2, c2, g1, g2, by rw [show 2 * (x / 2) = x by omega]; exact g3, g4, g5, g6, g7⟩
  · rw [if_neg he] at hops
    rw [hops] at hperm ⊢
    have hPs : P.symm = 1 := by rw [← hperm]; rfl
    have e1 : permCells r 1 c = c := by
      funext q y
      unfold permCells
      rw [up_one]; simp
    refine ⟨s, A, c, rfl, ?_, ?_, fun _ _ _ => rfl, .inl rfl, ?_, fun _ => rfl⟩
    · rw [hPs, permAddr_one, e1]; exact h.ph
    · have : x ^^^ 1 = 2 * (x / 2) := by rw [xor_one_cases, if_neg he]; omega
      rw [← this]; exact hsib
    · intro q y b hq
      rw [hPs, permAddr_one, up_one]; rfl

/-- The iterations of the rows below the root of the smallest tree. -/
theorem rows_hook {n t : ℕ} (hn : n ≤ 2 ^ 62) (hi : ∀ r, RowInv n (n - 1) [t] r) (ht : t < n) {A0 : Addr} {m : ℕ}
    (hnil : ∀ q, m ≤ q → q < St.numRows n → opsAt n (n - 1) [t] q (sg n (n - 1) [t] (St.numRows n) (q + 1)) = [])
    {s : Pollard H} {A : Addr} {c : ℕ → ℕ → H} (h : RowSt s n (n - 1) [t] A0 A c 0 [])
    (hk0 : HasKid s.ext n A 0 t) :
    ∀ k, k ≤ St.numRows n → n % 2 ^ k = 0 → ∃ (s' : Pollard H) (A' : Addr) (c' : ℕ → ℕ → H) (g : ℕ → H),
      Acc.removeRows vt n (St.numRows n) ((List.range' 0 m).map fun q =>
        posOps (St.numRows n) q (opsAt n (n - 1) [t] q (sg n (n - 1) [t] (St.numRows n) (q + 1)))) s [] =
      Acc.removeRows vt n (St.numRows n - k) ((List.range' k (m - k)).map fun q =>
        posOps (St.numRows n) q (opsAt n (n - 1) [t] q (sg n (n - 1) [t] (St.numRows n) (q + 1)))) s' [] ∧
      (RowSt s' n (n - 1) [t] A0 A' c' k [] ∧ HasKid s'.ext n A' k (t / 2 ^ k)) ∧
      (∀ x, x ≠ t → g x = c 0 x) ∧
      c' 0 = g ∘ (sg n (n - 1) [t] (St.numRows n) 0).symm ∘ up k (sg n (n - 1) [t] (St.numRows n) k) ∧
      (∀ x, Flag s'.ext (rtOf n) A' ((up k (sg n (n - 1) [t] (St.numRows n) k)).symm (sg n (n - 1) [t] (St.numRows n) 0 x)) ↔
        Flag s.ext (rtOf n) A x) ∧
      (∀ k, (PosMap.find s'.posmap k).isSome = (PosMap.find s.posmap k).isSome) ∧
      (@DirtInv Bool kidOps n (n - 1) [t] (St.numRows n) 0 (kidc s.ext (rtOf n) A) [] →
        @DirtInv Bool kidOps n (n - 1) [t] (St.numRows n) k (kidc s'.ext (rtOf n) A') []) := by
  intro k
  induction k with
  | zero =>
    intro _ _
    refine ⟨s, A, c, c 0, rfl, ⟨h, by simpa using hk0⟩, fun _ _ => rfl, ?_, ?_, fun _ => rfl, fun h => h⟩
    · funext x; simp [up_zero]
    · intro x; rw [up_zero, Equiv.symm_apply_apply]
  | succ k ih =>
    intro hk hdiv
    have hdvd : n % 2 ^ k = 0 :=
      Nat.mod_eq_zero_of_dvd ((pow_dvd_pow 2 (Nat.le_succ k)).trans (Nat.dvd_of_mod_eq_zero hdiv))
    obtain ⟨s1, A1, c1, g1, a1, a2, a3, a4, a5, a6, a7⟩ := ih (by omega) hdvd
    obtain ⟨s', A', c', c2, b1, b2, b3, b4, b5, b6, b7⟩ := row_hook hn hi ht hdiv (by omega) a2.1 a2.2
    have hstep : ∀ x, up k (sg n (n - 1) [t] (St.numRows n) k) x = up (k + 1) (sg n (n - 1) [t] (St.numRows n) (k + 1))
        (up k (rowPerm n (n - 1) [t] k (sg n (n - 1) [t] (St.numRows n) (k + 1))) x) := by
      intro x
      rw [sg_step _ _ _ (by omega : k < St.numRows n), up_mul, up_up]; rfl
    have hstep' : ∀ y, (up (k + 1) (sg n (n - 1) [t] (St.numRows n) (k + 1))).symm y =
        up k (rowPerm n (n - 1) [t] k (sg n (n - 1) [t] (St.numRows n) (k + 1)))
          ((up k (sg n (n - 1) [t] (St.numRows n) k)).symm y) := by
      intro y
      apply (up (k + 1) (sg n (n - 1) [t] (St.numRows n) (k + 1))).injective
      rw [Equiv.apply_symm_apply, ← hstep, Equiv.apply_symm_apply]
    refine ⟨s', A', c', fun x => if k = 0 ∧ x = t then c2 0 t else g1 x, ?_, ⟨b2, b2.kid (by omega) _ (by rw [Dn_single hdiv ht (k + 1) le_rfl]; simp)⟩, ?_, ?_, ?_, fun k => by rw [b6, a6], fun h => b7 (a7 h)⟩
    · rw [a1, show St.numRows n - k = St.numRows n - (k + 1) + 1 by omega, Acc.removeRows]
      have hhead : (((List.range' k (m - k)).map fun q =>
          posOps (St.numRows n) q (opsAt n (n - 1) [t] q (sg n (n - 1) [t] (St.numRows n) (q + 1)))).headD []) =
          posOps (St.numRows n) k (opsAt n (n - 1) [t] k (sg n (n - 1) [t] (St.numRows n) (k + 1))) := by
        cases hm : m - k with
        | zero => rw [hnil k (by omega) (by omega)]; rfl
        | succ m => rfl
      have htail : (((List.range' k (m - k)).map fun q =>
          posOps (St.numRows n) q (opsAt n (n - 1) [t] q (sg n (n - 1) [t] (St.numRows n) (q + 1)))).tail) =
          (List.range' (k + 1) (m - (k + 1))).map fun q =>
          posOps (St.numRows n) q (opsAt n (n - 1) [t] q (sg n (n - 1) [t] (St.numRows n) (q + 1))) := by
        rw [show m - (k + 1) = m - k - 1 by omega]
        cases m - k with
        | zero => rfl
        | succ m => rfl
      rw [hhead, htail, List.map_nil, b1, ok_bind]
      simp only [Acc.rehashDirty]
      rw [ok_bind]
    · intro x hx
      simp only
      rw [if_neg (by tauto)]
      exact a3 x hx
    · rw [b3]
      funext y
      simp only [Function.comp]
      obtain ⟨w, rfl⟩ := (up k (rowPerm n (n - 1) [t] k (sg n (n - 1) [t] (St.numRows n) (k + 1)))).surjective y
      rw [up_symm_up, ← hstep]
      by_cases h0 : k = 0 ∧ w = t
      · obtain ⟨rfl, rfl⟩ := h0
        rw [up_zero, Equiv.symm_apply_apply, if_pos ⟨rfl, rfl⟩]
      · rw [b4 w h0, a4]
        simp only [Function.comp]
        rw [if_neg]
        rintro ⟨rfl, h2⟩
        rw [up_zero, Equiv.symm_apply_apply] at h2
        exact h0 ⟨rfl, h2⟩
    · intro x
      rw [hstep', b5, a5]

/-- `Remove` with a single remembered target, not verified before, all of whose ancestors from the root row of the smallest
tree on have their objects. -/
theorem remove_single_ok {s : Pollard H} {n : ℕ} {f : ℕ → H} {A : Addr} {t h0 : ℕ} (h : Inv s n f A) (hn62 : n ≤ 2 ^ 62)
    (ht : t < n) (hdiv : n % 2 ^ h0 = 0) (hflag : Flag s.ext (rtOf n) A t) (hP : PresFrom n A [t] h0) :
    ∃ (s' : Pollard H) (A' : Addr), Acc.remove vt s [t] = .ok (true, s') ∧
      Inv s' (n - 1) (f ∘ (sg n (n - 1) [t] (St.numRows n) 0).symm) A' ∧
      (∀ x, sg n (n - 1) [t] (St.numRows n) 0 x < n - 1 →
        (Flag s'.ext (rtOf (n - 1)) A' (sg n (n - 1) [t] (St.numRows n) 0 x) ↔ Flag s.ext (rtOf n) A x)) ∧
      (Sparse s.ext n A → Sparse s'.ext (n - 1) A') := by
  have hnR : n ≤ 2 ^ St.numRows n := le_two_pow_numRows (by omega)
  have hb : ∀ i ∈ [t], i < n := by simpa using ht
  have hs : [t].Pairwise (· < ·) := by simp
  have hi : ∀ r, RowInv n (n - 1) [t] r := rowInv hs hb (n' := n - 1) (by simp; omega)
  have hh0 : h0 ≤ St.numRows n := by
    have h1 : 2 ^ h0 ≤ n := Nat.le_of_dvd (by omega) (Nat.dvd_of_mod_eq_zero hdiv)
    exact (Nat.pow_le_pow_iff_right (by omega : 1 < 2)).1 (h1.trans hnR)
  unfold Acc.remove
  rw [if_neg (by simp)]
  obtain ⟨b, hb1, hb2⟩ := C07_checkTargetsSanity n [t]
  have hbt : b = true := hb2.2 ⟨hs, hb⟩
  subst hbt
  have hv := visited_le n [t] (St.numRows n) 0
  have hJ : RowSt s n (n - 1) [t] A A (mt f) 0 [] := by
    refine ⟨h.ph, fun _ _ _ => rfl, ?_, fun q hq => by omega, ⟨?_, ?_, by simp⟩, by simp, fun _ => rfl⟩
    · intro hz; omega
    · intro q hq x hx; rfl
    · intro q hq x hx; exact .inl rfl
  have hnil : ∀ q, visited n [t] (St.numRows n) 0 ≤ q → q < St.numRows n →
      opsAt n (n - 1) [t] q (sg n (n - 1) [t] (St.numRows n) (q + 1)) = [] := fun q hq hqR =>
    nil_opsAt hi hnR hqR (visited_nil hi (St.numRows n) 0 q (by omega) (by omega))
  obtain ⟨s0, A0, c0, g, e1, e2, e3, e4, e5, e6, e7⟩ := rows_hook hn62 hi ht hnil hJ ⟨0, by omega, hflag⟩ h0 hh0 hdiv
  obtain ⟨s1, A1, c1, a1, a2, a3, a4, a5, -⟩ := removeRows_ok hn62 hi h.ph.shape hP (St.numRows n - h0) h0
    (visited n [t] (St.numRows n) 0 - h0) s0 A0 c0 [] le_rfl (by omega) (by omega) (by
      intro q hq hqR
      exact hnil q (by omega) hqR) e2.1
  have hc0 : c1 0 = g ∘ (sg n (n - 1) [t] (St.numRows n) 0).symm := by
    rw [a3, e4]
    funext x
    simp only [Function.comp]
    rw [show up h0 (sg n (n - 1) [t] (St.numRows n) h0) (up h0 (sg n (n - 1) [t] (St.numRows n) h0).symm x) = x from by
      rw [← Perm.mul_apply, ← up_mul, show sg n (n - 1) [t] (St.numRows n) h0 * (sg n (n - 1) [t] (St.numRows n) h0).symm = 1 from by
        ext; simp, up_one]; rfl]
  have hS := sg_sinks hi hnR (r := 0) (Nat.zero_le _)
  have hgt : n - 1 ≤ sg n (n - 1) [t] (St.numRows n) 0 t := by
    have := (hS.mem t).1 (by simp [Dn])
    simpa using this.1
  have hgood : ∀ q x, x < (n - 1) / 2 ^ q → c1 q x = mt (f ∘ (sg n (n - 1) [t] (St.numRows n) 0).symm) q x := by
    intro q x hx
    have hxn : x < n / 2 ^ q := lt_of_lt_of_le hx (Nat.div_le_div_right (by omega))
    obtain ⟨q1, -⟩ := row_le hn62 hxn
    have h1 := a2.dirt.low q q1 x (by
      rw [sg_top _ _ _ le_rfl, up_one]
      exact hx)
    rw [h1]
    apply mt_congr
    intro y hy
    rw [hc0]
    simp only [Function.comp]
    rw [e3]
    · rfl
    · intro he
      rw [← hy] at hx
      have h2 : y < n - 1 := Nat.lt_of_div_lt_div hx
      rw [← (Equiv.symm_apply_eq _).1 he] at hgt
      omega
  have hnew : ∀ q, (n - 1).testBit q = true → (A1 q (rootIdx (n - 1) q)).isSome := by
    intro q hq
    have hqR : q < St.numRows n := by
      by_contra hc
      have : n - 1 < 2 ^ q :=
        lt_of_lt_of_le (by omega : n - 1 < 2 ^ St.numRows n) (Nat.pow_le_pow_right (by omega) (by omega))
      rw [Nat.testBit_lt_two_pow this] at hq
      simp at hq
    have := a2.new q hqR hq
    rw [sg_top _ _ _ le_rfl, up_one] at this
    exact this
  obtain ⟨s2, b1, b2, b3, -, -⟩ := a2.ph.finalizeRemove_ok hn62 (n' := n - 1) (by omega) hnew
  refine ⟨{ s2 with numLeaves := n - 1 }, cut (n - 1) A1, ?_, ⟨⟨b2.num, b2.shape, ?_, b2.roots, b2.pos⟩, ?_⟩, ?_, ?_⟩
  · simp only [h.ph.num]
    rw [hb1, ok_bind]
    simp only [Bool.not_true, Bool.false_eq_true, if_false]
    rw [transform_eq hn62 hs hb, ok_bind]
    simp only [List.length_cons, List.length_nil, zero_add]
    have a1' := e1.trans a1
    rw [a1', ok_bind]
    simp only
    rw [cassert_true (by simp), ok_bind, a2.ph.num, sub64_ok (by omega) (by omega)]
    have b1' : vt.finalizeRemove s1 (n - 1) = _ := b1
    rw [b1', ok_bind]
    rfl
  · intro q x p hp
    rw [b2.hashed q x p hp, hgood q x (cut_some hp).1]
  · intro q x hx
    exact cut_out hx
  · intro x hx
    rw [← e5 x, ← a4.flag, Equiv.apply_symm_apply]
    exact b3 _ hx
  · intro hsp
    have hd := a5 (e7 (@DirtInv.mk Bool kidOps _ _ _ _ _ _ _ (fun q hq x hx => by
        obtain rfl : q = 0 := by omega
        rfl) (fun q hq x hx => .inl (hsp q x hx)) (by simp)))
    have hq0 : ∀ q x, x < (n - 1) / 2 ^ q →
        kidc s2.ext (rtOf (n - 1)) (cut (n - 1) A1) q x = kidc s1.ext (rtOf n) A1 q x := by
      intro q x hx
      cases q with
      | zero =>
        simp only [kidc]
        rw [Bool.eq_iff_iff]
        exact b3 x (by simpa using hx)
      | succ q =>
        simp only [kidc]
        have := Ram.child_bound hx
        rw [cut_in (by omega), cut_in (by omega)]
    intro q x hx
    show kidc s2.ext (rtOf (n - 1)) (cut (n - 1) A1) q x = _
    obtain ⟨q1, -⟩ := row_le hn62 (lt_of_lt_of_le hx (Nat.div_le_div_right (by omega : n - 1 ≤ n)))
    have hlow := @DirtInv.low Bool kidOps _ _ _ _ _ _ _ hd q q1 x (by rw [sg_top _ _ _ le_rfl, up_one]; exact hx)
    rw [hq0 q x hx, hlow]
    refine @mt_congr Bool kidOps _ _ q x ?_
    intro y hy
    refine (hq0 0 y ?_).symm
    rw [pow_zero, Nat.div_one]
    rw [← hy] at hx
    exact Nat.lt_of_div_lt_div hx

end Pol
end Utreexo
