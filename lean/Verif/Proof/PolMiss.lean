import Verif.Proof.PolHook

/-!
# Removing a single leaf above which an object is missing

From the root row of the smallest tree on, a removal of one leaf uses the objects of all the leaf's ancestors: `SwapSubTrees`
writes to the one in that row, and `ReHash` to those above.
-/

set_option linter.unusedSectionVars false

namespace Utreexo
open Spec Equiv

variable {H : Type} [DecidableEq H] [HashOps H]

/-- The swap of one leaf's removal in the row of the root of the smallest tree: that root takes the place of the leaf's ancestor. -/
theorem root_ops {n t k : ℕ} {ρ : Perm ℕ} (hi : ∀ r, RowInv n (n - 1) [t] r) (hdiv : n % 2 ^ k = 0) (hbit : n.testBit k = true)
    (ht : t < n) (hlow : t / 2 ^ (k + 1) < n / 2 ^ (k + 1)) :
    Dn n [t] (k + 1) = [] ∧ opsAt n (n - 1) [t] k ρ = [(2 * (n / 2 ^ (k + 1)), t / 2 ^ k, false)] := by
  have hd := Dn_single hdiv ht k le_rfl
  have hodd : n / 2 ^ k % 2 = 1 := by
    rw [Nat.testBit_eq_decide_div_mod_eq] at hbit
    simpa using hbit
  have hm : n / 2 ^ (k + 1) = n / 2 ^ k / 2 := (Pol.div_div_two n k).symm
  have hz : t / 2 ^ (k + 1) = t / 2 ^ k / 2 := (Pol.div_div_two t k).symm
  have hm' : (n - 1) / 2 ^ (k + 1) = (n - 1) / 2 ^ k / 2 := (Pol.div_div_two (n - 1) k).symm
  have c0 := (hi k).count
  have c1 := (hi (k + 1)).count
  rw [hd] at c0
  simp only [List.length_cons, List.length_nil, zero_add] at c0
  have hd' : Dn n [t] (k + 1) = [] := by
    apply List.eq_nil_of_length_eq_zero
    omega
  refine ⟨hd', ?_⟩
  have hok := (hi k).ok
  rw [hd, hd', hbit] at hok
  set x := t / 2 ^ k with hx
  set m := n / 2 ^ (k + 1) with hmd
  have hX : Xn n [t] k = none := by
    have hc := hok.card
    simp only [List.length_nil, List.length_cons, Bool.toNat_true] at hc
    cases hX : Xn n [t] k with
    | none => rfl
    | some y => rw [hX] at hc; simp at hc
  have hall : ∀ p ∈ Sn n [t] k, p = (2 * m, x) := by
    rintro ⟨a, w⟩ hp
    obtain ⟨h1, -, h3, -⟩ := hok.swaps a w hp
    simp only [List.mem_singleton] at h1
    simp only [List.not_mem_nil, false_or, true_and] at h3
    rw [h1, h3]
  have hne : Sn n [t] k ≠ [] := by
    intro he
    have := (hok.rest x (by rw [he]; simp)).1 (by simp)
    simp only [List.not_mem_nil, false_or, true_and] at this
    omega
  have hSn : Sn n [t] k = [(2 * m, x)] := by
    have hnd := hok.fst
    generalize Sn n [t] k = S at *
    match S, hne with
    | [p], _ => rw [hall p (by simp)]
    | p :: q :: S, _ =>
      exfalso
      have e1 := hall p (by simp)
      have e2 := hall q (by simp)
      rw [e1, e2] at hnd
      simp at hnd
  unfold opsAt
  rw [hSn, hX]
  rfl

namespace Pol

/-- Exchanging with a node that has no object. -/
theorem PH.swap_ub {s : Pollard H} {n : ℕ} {A : Addr} {c : ℕ → ℕ → H} (h : PH s n A c) (hn : n ≤ 2 ^ 62)
    {r i j : ℕ} (hi : i < n / 2 ^ r) (hj : j < n / 2 ^ r) (hij : i ≠ j) (hs : i ^^^ 1 ≠ j) (pi : Pres n A r i)
    (hb : (holder (rtOf n) A r j).isSome) (hA : A r j = none) :
    swapSubTrees s (posOf (St.numRows n) r i) (posOf (St.numRows n) r j) = .error .ub := by
  obtain ⟨r1, i1⟩ := row_le hn hi
  obtain ⟨ti, pathi, ti1, ti2, gi, gi'⟩ := readSiblings_ok h.num hn (h.shape.kidsFrom r)
    (fun q y p hp => (h.shape.bnd q y p hp).2) h.roots hi
  obtain ⟨tj, pathj, tj1, tj2, gj, gj'⟩ := readSiblings_ok h.num hn (h.shape.kidsFrom r)
    (fun q y p hp => (h.shape.bnd q y p hp).2) h.roots hj
  obtain ⟨ai, hai⟩ := Option.isSome_iff_exists.1 pi.1
  obtain ⟨bi, hbi⟩ := Option.isSome_iff_exists.1 pi.2
  obtain ⟨bj, hbj⟩ := Option.isSome_iff_exists.1 hb
  have hne : St.sibling (posOf (St.numRows n) r i) ≠ posOf (St.numRows n) r j := by
    intro he
    rw [sibling_posOf r1] at he
    unfold posOf at he; omega
  rw [hai, hbi] at gi
  rw [hA, hbj] at gj
  unfold swapSubTrees
  rw [gi, ok_bind]
  simp only [hookIn]
  rw [ok_bind]
  simp only
  rw [if_neg hne]
  have gj'' : readSiblings { s with ext := s.ext } (posOf (St.numRows n) r j) = _ := gj
  rw [gj'', ok_bind]
  simp only [hookIn]
  rw [ok_bind]
  simp only [pure_bind]
  rfl

/-- Rehashing a node that has no object but both its children. -/
theorem PH.reHash_ub {s : Pollard H} {n : ℕ} {A A0 : Addr} {c : ℕ → ℕ → H} (h : PH s n A c)
    {r d : ℕ} (hd : d < n / 2 ^ (r + 1)) (hA : Above A A0 (r + 1)) (hb : (holder (rtOf n) A0 (r + 1) d).isSome)
    (hno : A0 (r + 1) d = none) (hk : (A r (2 * d)).isSome ∧ (A r (2 * d + 1)).isSome) :
    nodeReHash s (pd n A0 (r + 1) d) = .error .ub := by
  obtain ⟨ah, hah⟩ := Option.isSome_iff_exists.1 hb
  have e1 : (pd n A0 (r + 1) d).e.node = none := hno
  have e2 : (pd n A0 (r + 1) d).e.sib = some ah := hah
  rw [← hA.holder _ le_rfl] at hah
  have f0 : rtOf n r (2 * d) = false := rtOf_false (by rw [show 2 * d / 2 = d by omega]; exact hd)
  have f1 : rtOf n r (2 * d + 1) = false := rtOf_false (by rw [show (2 * d + 1) / 2 = d by omega]; exact hd)
  obtain ⟨x, hx⟩ := h.shape.hget hah
  have k0 : A r (2 * d) = x.n0 := by
    have := h.shape.kids r (2 * d) f0
    rw [show 2 * d / 2 = d by omega, hah, nz_some hx, show 2 * d % 2 = 0 by omega] at this
    exact this
  have k1 : A r (2 * d + 1) = x.n1 := by
    have := h.shape.kids r (2 * d + 1) f1
    rw [show (2 * d + 1) / 2 = d by omega, hah, nz_some hx, show (2 * d + 1) % 2 = 1 by omega] at this
    exact this
  obtain ⟨l, hl⟩ := Option.isSome_iff_exists.1 hk.1
  obtain ⟨rr, hr⟩ := Option.isSome_iff_exists.1 hk.2
  obtain ⟨lx, hlx⟩ := h.shape.get hl
  obtain ⟨rx, hrx⟩ := h.shape.get hr
  unfold nodeReHash
  rw [e2, deref_ok hx, ok_bind, ← k0, ← k1, hl, hr]
  simp only
  rw [vecGet_ok hlx, ok_bind, vecGet_ok hrx, ok_bind, e1]
  rfl

/-- The iterations up to the first row in which an object is missing. -/
theorem rows_miss {n t k : ℕ} (hn : n ≤ 2 ^ 62) (hi : ∀ r, RowInv n (n - 1) [t] r) (ht : t < n) (hdiv : n % 2 ^ k = 0)
    (hbit : n.testBit k = true) {A0 : Addr} {heap0 : List (INode H)} (hs0 : Shape heap0 (rtOf n) A0) {m : ℕ}
    (hnil : ∀ q, m ≤ q → q < St.numRows n → opsAt n (n - 1) [t] q (sg n (n - 1) [t] (St.numRows n) (q + 1)) = [])
    (hH : ∀ q, t / 2 ^ q < n / 2 ^ q → (holder (rtOf n) A0 q (t / 2 ^ q)).isSome)
    {q : ℕ} (hkq : k < q) (hin : t / 2 ^ q < n / 2 ^ q) (hA : A0 q (t / 2 ^ q) = none)
    (hP : ∀ r, k ≤ r → r < q → (A0 r (t / 2 ^ r)).isSome) :
    ∀ (d r : ℕ) (s : Pollard H) (A : Addr) (c : ℕ → ℕ → H) (Dt : List ℕ), r + d + 1 = q → k ≤ r →
      RowSt s n (n - 1) [t] A0 A c r Dt →
      (k < r → t / 2 ^ (r + 1) ∈ Dt) →
      Acc.removeRows vt n (St.numRows n - r) ((List.range' r (m - r)).map fun q =>
        posOps (St.numRows n) q (opsAt n (n - 1) [t] q (sg n (n - 1) [t] (St.numRows n) (q + 1)))) s
        (Dt.map (pd n A0 (r + 1))) = .error .ub := by
  have hnR : n ≤ 2 ^ St.numRows n := le_two_pow_numRows (by omega)
  have hqR := (row_le hn hin).1
  have hup : ∀ r, r ≤ q → t / 2 ^ r < n / 2 ^ r := by
    intro r hr
    have h1 : ∀ a : ℕ, a / 2 ^ q = a / 2 ^ r / 2 ^ (q - r) := by
      intro a
      rw [Nat.div_div_eq_div_mul, ← pow_add, show r + (q - r) = q by omega]
    rw [h1 t, h1 n] at hin
    exact Nat.lt_of_div_lt_div hin
  have hroot := root_ops (ρ := sg n (n - 1) [t] (St.numRows n) (k + 1)) hi hdiv hbit ht (hup (k + 1) (by omega))
  have hpres : ∀ r, k ≤ r → r < q → Pres n A0 r (t / 2 ^ r) := fun r h1 h2 => ⟨hP r h1 h2, hH r (hup r (by omega))⟩
  have hopsnil : ∀ r, k < r → r < q → opsAt n (n - 1) [t] r (sg n (n - 1) [t] (St.numRows n) (r + 1)) = [] := by
    intro r h1 h2
    exact nil_opsAt hi hnR (by omega) (Dn_nil_mono hi hroot.1 r (by omega))
  intro d
  induction d with
  | zero =>
    intro r s A c Dt hrd hkr h hD
    obtain rfl : q = r + 1 := by omega
    have hhead : (((List.range' r (m - r)).map fun q =>
        posOps (St.numRows n) q (opsAt n (n - 1) [t] q (sg n (n - 1) [t] (St.numRows n) (q + 1)))).headD []) =
        posOps (St.numRows n) r (opsAt n (n - 1) [t] r (sg n (n - 1) [t] (St.numRows n) (r + 1))) := by
      cases hm : m - r with
      | zero => rw [hnil r (by omega) (by omega)]; rfl
      | succ m => rfl
    rw [show St.numRows n - r = St.numRows n - (r + 1) + 1 by omega, Acc.removeRows, hhead]
    have hop : ∀ o ∈ opsAt n (n - 1) [t] r (sg n (n - 1) [t] (St.numRows n) (r + 1)), OpOK n A0 r o := by
      intro o ho
      rcases Nat.eq_or_lt_of_le hkr with e | e
      · subst e
        rw [hroot.2, List.mem_singleton] at ho
        subst ho
        have h1 := hup k (by omega)
        have h2 := hup (k + 1) le_rfl
        rw [← div_div_two, ← div_div_two n] at h2
        have hodd : n / 2 ^ k % 2 = 1 := by
          rw [Nat.testBit_eq_decide_div_mod_eq] at hbit
          simpa using hbit
        have hm : n / 2 ^ (k + 1) = n / 2 ^ k / 2 := (div_div_two n k).symm
        refine ⟨⟨by simp only; omega, h1, by simp only; omega⟩, ?_, hpres k le_rfl (by omega), fun _ => by simp only; omega, ?_⟩
        · apply pres_root hs0
          rw [rtOf_iff (by simp only; omega)]
          simp only; omega
        · intro _ q' hq' hx
          simp only at hx ⊢
          have e2 : t / 2 ^ k / 2 ^ (q' - k) = t / 2 ^ q' := by
            rw [Nat.div_div_eq_div_mul, ← pow_add, show k + (q' - k) = q' by omega]
          rw [e2] at hx ⊢
          exact hH q' hx
      · rw [hopsnil r e (by omega)] at ho
        simp at ho
    obtain ⟨s1, g1, g2, -⟩ := runSwaps_ok hn (r := r) (A0 := A0) _ s A c ((Dt.map (pd n A0 (r + 1))).map some) hop h.above h.ph
    rw [g1, ok_bind]
    simp only
    -- all that is dirty is the ancestor
    obtain ⟨w, hw⟩ : ∃ w, (Dt.map (pd n A0 (r + 1))).map some ++
        (((opsAt n (n - 1) [t] r (sg n (n - 1) [t] (St.numRows n) (r + 1))).filter fun o => !o.2.2).map fun o =>
          some (pd n A0 (r + 1) (o.2.1 / 2))) = some (pd n A0 (r + 1) (t / 2 ^ (r + 1))) :: w := by
      cases hDt : Dt with
      | nil =>
        have e : r = k := by
          by_contra hc
          have := hD (by omega)
          rw [hDt] at this
          simp at this
        subst e
        rw [hroot.2]
        exact ⟨[], by simp [div_div_two]⟩
      | cons d ds =>
        obtain ⟨t', ht', e⟩ := h.anc d (by rw [hDt]; simp)
        rw [List.mem_singleton] at ht'
        subst ht'
        rw [← e]
        exact ⟨_, rfl⟩
    rw [hw, rehashDirty_cons]
    have hkids : ∀ y, y / 2 = t / 2 ^ (r + 1) → (A r y).isSome := by
      intro y hy
      rw [h.above r y le_rfl]
      exact (pres_row' (fun _ => hpres r hkr (by omega)) hy (by rw [hy]; exact hin)).1
    have hub := g2.reHash_ub (A0 := A0) (r := r) (d := t / 2 ^ (r + 1)) hin
      (fun q y hq => (h.above.perm _) q y (by omega)) (hH _ hin) hA (by
        unfold permAddr
        rw [if_neg (lt_irrefl r), if_neg (lt_irrefl r)]
        exact ⟨hkids _ (by omega), hkids _ (by omega)⟩)
    have hub' : vt.nodeReHash s1 (pd n A0 (r + 1) (t / 2 ^ (r + 1))) = _ := hub
    rw [hub']
    rfl
  | succ d ih =>
    intro r s A c Dt hrd hkr h hD
    have hhead : (((List.range' r (m - r)).map fun q =>
        posOps (St.numRows n) q (opsAt n (n - 1) [t] q (sg n (n - 1) [t] (St.numRows n) (q + 1)))).headD []) =
        posOps (St.numRows n) r (opsAt n (n - 1) [t] r (sg n (n - 1) [t] (St.numRows n) (r + 1))) := by
      cases hm : m - r with
      | zero => rw [hnil r (by omega) (by omega)]; rfl
      | succ m => rfl
    have htail : (((List.range' r (m - r)).map fun q =>
        posOps (St.numRows n) q (opsAt n (n - 1) [t] q (sg n (n - 1) [t] (St.numRows n) (q + 1)))).tail) =
        (List.range' (r + 1) (m - (r + 1))).map fun q =>
        posOps (St.numRows n) q (opsAt n (n - 1) [t] q (sg n (n - 1) [t] (St.numRows n) (q + 1))) := by
      rw [show m - (r + 1) = m - r - 1 by omega]
      cases m - r with
      | zero => rfl
      | succ m => rfl
    obtain ⟨s1, s2, dirty, A', N, b1, b2, b3, -, -, -, b6⟩ := row_step' hn hi hs0 (r := r) (by omega)
      (by
        intro t' ht' q' h1 h2 _
        rw [List.mem_singleton] at ht'
        subst ht'
        exact hpres q' (by omega) (by omega))
      (by
        intro t' ht' q' h1 h2
        rw [List.mem_singleton] at ht'
        subst ht'
        exact hH q' h2) h
    rw [show St.numRows n - r = St.numRows n - (r + 1) + 1 by omega, Acc.removeRows, hhead, htail, b1, ok_bind]
    simp only
    rw [b2, ok_bind]
    refine ih (r + 1) s2 A' _ N (by omega) (by omega) b3 ?_
    intro _
    rw [b6]
    refine ⟨t / 2 ^ (r + 1), ?_, ?_, div_div_two t (r + 1)⟩
    · rcases Nat.eq_or_lt_of_le hkr with e | e
      · subst e
        rw [hroot.2]
        simp [div_div_two]
      · exact List.mem_append_left _ (hD e)
    · have := hup (r + 2) (by omega)
      rw [← div_div_two] at this
      omega

/-- `Remove` with a single remembered target above which an object is missing. -/
theorem remove_single_ub {s : Pollard H} {n : ℕ} {f : ℕ → H} {A : Addr} {t k q : ℕ} (h : Inv s n f A) (hn62 : n ≤ 2 ^ 62)
    (ht : t < n) (hdiv : n % 2 ^ k = 0) (hbit : n.testBit k = true) (hflag : Flag s.ext (rtOf n) A t) (hkq : k ≤ q)
    (hin : t / 2 ^ q < n / 2 ^ q) (hA : A q (t / 2 ^ q) = none) : Acc.remove vt s [t] = .error .ub := by
  have hnR : n ≤ 2 ^ St.numRows n := le_two_pow_numRows (by omega)
  have hb : ∀ i ∈ [t], i < n := by simpa using ht
  have hs : [t].Pairwise (· < ·) := by simp
  have hi : ∀ r, RowInv n (n - 1) [t] r := rowInv hs hb (n' := n - 1) (by simp; omega)
  have hh0 : k ≤ St.numRows n := by
    have h1 : 2 ^ k ≤ n := Nat.le_of_dvd (by omega) (Nat.dvd_of_mod_eq_zero hdiv)
    exact (Nat.pow_le_pow_iff_right (by omega : 1 < 2)).1 (h1.trans hnR)
  -- the lowest row with a missing object
  obtain ⟨q, ⟨hkq, hin, hA⟩, hmin⟩ : ∃ q, (k ≤ q ∧ t / 2 ^ q < n / 2 ^ q ∧ A q (t / 2 ^ q) = none) ∧
      ∀ r, k ≤ r → r < q → ¬ (k ≤ r ∧ t / 2 ^ r < n / 2 ^ r ∧ A r (t / 2 ^ r) = none) := by
    classical
    have hex : ∃ q, k ≤ q ∧ t / 2 ^ q < n / 2 ^ q ∧ A q (t / 2 ^ q) = none := ⟨q, hkq, hin, hA⟩
    exact ⟨Nat.find hex, Nat.find_spec hex, fun r _ hr => Nat.find_min hex hr⟩
  have hqR := (row_le hn62 hin).1
  have hup : ∀ r, r ≤ q → t / 2 ^ r < n / 2 ^ r := by
    intro r hr
    have h1 : ∀ a : ℕ, a / 2 ^ q = a / 2 ^ r / 2 ^ (q - r) := by
      intro a
      rw [Nat.div_div_eq_div_mul, ← pow_add, show r + (q - r) = q by omega]
    rw [h1 t, h1 n] at hin
    exact Nat.lt_of_div_lt_div hin
  have hP : ∀ r, k ≤ r → r < q → (A r (t / 2 ^ r)).isSome := by
    intro r h1 h2
    have := hmin r h1 h2
    rw [← Option.not_isNone, Bool.not_eq_true', ← Bool.not_eq_true, Option.isNone_iff_eq_none]
    exact fun e => this ⟨h1, hup r (by omega), e⟩
  have hnr : t / 2 ^ (q + 1) < n / 2 ^ (q + 1) := by
    by_contra hc
    have := pres_root h.ph.shape (n := n) (A := A) (r := q) (y := t / 2 ^ q) (by rw [rtOf_iff hin, div_div_two]; exact hc)
    have h1 := this.1
    rw [hA] at h1
    simp at h1
  have hH : ∀ q, t / 2 ^ q < n / 2 ^ q → (holder (rtOf n) A q (t / 2 ^ q)).isSome := by
    intro q hq
    obtain ⟨w, hw, -⟩ := hflag.holder
    have := h.ph.shape.holders (r := 0) (i := t) (by rw [hw]; rfl) q (by rw [zero_add]; exact hq)
    rwa [zero_add] at this
  have hv := visited_le n [t] (St.numRows n) 0
  have hJ : RowSt s n (n - 1) [t] A A (mt f) 0 [] := by
    refine ⟨h.ph, fun _ _ _ => rfl, ?_, fun q hq => by omega, ⟨?_, ?_, by simp⟩, by simp, fun _ => rfl⟩
    · intro hz; omega
    · intro q hq x hx; rfl
    · intro q hq x hx; exact .inl rfl
  have hnil : ∀ q, visited n [t] (St.numRows n) 0 ≤ q → q < St.numRows n →
      opsAt n (n - 1) [t] q (sg n (n - 1) [t] (St.numRows n) (q + 1)) = [] := fun q hq hqR =>
    nil_opsAt hi hnR hqR (visited_nil hi (St.numRows n) 0 q (by omega) (by omega))
  obtain ⟨s0, A0, c0, g, e1, e2, -⟩ := rows_hook hn62 hi ht hnil hJ ⟨0, by omega, hflag⟩ k hh0 hdiv
  have key : Acc.removeRows vt n (St.numRows n - k) ((List.range' k (visited n [t] (St.numRows n) 0 - k)).map fun q =>
      posOps (St.numRows n) q (opsAt n (n - 1) [t] q (sg n (n - 1) [t] (St.numRows n) (q + 1)))) s0 [] = .error .ub := by
    rcases Nat.eq_or_lt_of_le hkq with e | e
    · subst e
      have hroot := root_ops (ρ := sg n (n - 1) [t] (St.numRows n) (k + 1)) hi hdiv hbit ht hnr
      have hkR := (row_le hn62 hnr).1
      have hhead : (((List.range' k (visited n [t] (St.numRows n) 0 - k)).map fun q =>
          posOps (St.numRows n) q (opsAt n (n - 1) [t] q (sg n (n - 1) [t] (St.numRows n) (q + 1)))).headD []) =
          posOps (St.numRows n) k (opsAt n (n - 1) [t] k (sg n (n - 1) [t] (St.numRows n) (k + 1))) := by
        cases hm : visited n [t] (St.numRows n) 0 - k with
        | zero => rw [hnil k (by omega) (by omega)]; rfl
        | succ m => rfl
      rw [show St.numRows n - k = St.numRows n - (k + 1) + 1 by omega, Acc.removeRows, hhead, hroot.2]
      have hodd : n / 2 ^ k % 2 = 1 := by
        rw [Nat.testBit_eq_decide_div_mod_eq] at hbit
        simpa using hbit
      have hm : n / 2 ^ (k + 1) = n / 2 ^ k / 2 := (div_div_two n k).symm
      have hnr' := hnr
      rw [← div_div_two, hm] at hnr'
      have bi : 2 * (n / 2 ^ (k + 1)) < n / 2 ^ k := by omega
      have bij : 2 * (n / 2 ^ (k + 1)) ≠ t / 2 ^ k := by omega
      have bs : (2 * (n / 2 ^ (k + 1))) ^^^ 1 ≠ t / 2 ^ k := by
        rw [xor_one_even]; omega
      obtain ⟨mp, u1, -⟩ := e2.1.ph.updatePosSubtree_ok hn62 bi hin bij
      have h' : PH { s0 with posmap := mp } n A0 c0 := ⟨e2.1.ph.num, e2.1.ph.shape, e2.1.ph.hashed, e2.1.ph.roots, e2.1.ph.pos⟩
      have hub := h'.swap_ub hn62 bi hin bij bs
        (e2.1.above.pres le_rfl (pres_root h.ph.shape (by rw [rtOf_iff bi]; omega)))
        (by rw [e2.1.above.holder _ le_rfl]; exact hH k hin) (by rw [e2.1.above k _ le_rfl]; exact hA)
      unfold posOps
      rw [List.map_cons, Acc.runSwaps]
      simp only
      rw [u1, ok_bind]
      have hub' : vt.swapSubTrees { s0 with posmap := mp } (posOf (St.numRows n) k (2 * (n / 2 ^ (k + 1))))
        (posOf (St.numRows n) k (t / 2 ^ k)) = _ := hub
      rw [hub']
      rfl
    · exact rows_miss hn62 hi ht hdiv hbit h.ph.shape hnil hH e hin hA hP (q - k - 1) k s0 A0 c0 [] (by omega) le_rfl e2.1
        (fun hc => absurd hc (lt_irrefl _))
  unfold Acc.remove
  rw [if_neg (by simp)]
  obtain ⟨b, hb1, hb2⟩ := C07_checkTargetsSanity n [t]
  have hbt : b = true := hb2.2 ⟨hs, hb⟩
  subst hbt
  simp only [h.ph.num]
  rw [hb1, ok_bind]
  simp only [Bool.not_true, Bool.false_eq_true, if_false]
  rw [transform_eq hn62 hs hb, ok_bind]
  simp only [List.length_cons, List.length_nil, zero_add]
  have e1' := e1.trans key
  rw [e1']
  rfl

end Pol
end Utreexo
