import Verif.Proof.RamRemove

/-! # `RamForest::Add` -/

set_option linter.unusedSectionVars false

namespace Utreexo
open Spec Equiv

variable {H : Type} [DecidableEq H] [HashOps H]

/-! ## Binary increment -/

theorem succ_div_of_bits {n : ℕ} : ∀ q, (∀ p, p < q → n.testBit p = true) → (n + 1) / 2 ^ q = n / 2 ^ q + 1 := by
  intro q
  induction q with
  | zero => intro _; simp
  | succ q ih =>
    intro h
    have h1 := ih (fun p hp => h p (by omega))
    have h2 := testBit_div (n := n) (t := q)
    rw [if_pos (h q (by omega))] at h2
    rw [pow_succ, ← Nat.div_div_eq_div_mul, h1, ← Nat.div_div_eq_div_mul]
    rw [pow_succ, ← Nat.div_div_eq_div_mul] at h2
    omega

theorem succ_div_above {n r q : ℕ} (h : ∀ p, p < r → n.testBit p = true) (hr : n.testBit r = false) (hq : r < q) :
    (n + 1) / 2 ^ q = n / 2 ^ q := by
  have h1 := succ_div_of_bits r h
  have h2 := testBit_div (n := n) (t := r)
  rw [hr] at h2
  have h3 : (n + 1) / 2 ^ (r + 1) = n / 2 ^ (r + 1) := by
    rw [pow_succ, ← Nat.div_div_eq_div_mul, h1, ← Nat.div_div_eq_div_mul]
    rw [pow_succ, ← Nat.div_div_eq_div_mul] at h2
    simp at h2
    omega
  obtain ⟨d, rfl⟩ : ∃ d, q = r + 1 + d := ⟨q - (r + 1), by omega⟩
  rw [pow_add, ← Nat.div_div_eq_div_mul, h3, Nat.div_div_eq_div_mul]

theorem testBit_of_div {m n t : ℕ} (h : m / 2 ^ t = n / 2 ^ t) : m.testBit t = n.testBit t := by
  rw [Nat.testBit_eq_decide_div_mod_eq, Nat.testBit_eq_decide_div_mod_eq, h]

theorem succ_testBit {n r : ℕ} (h : ∀ p, p < r → n.testBit p = true) (hr : n.testBit r = false) (t : ℕ) :
    (n + 1).testBit t = if t < r then false else if t = r then true else n.testBit t := by
  split
  · rename_i ht
    have h1 := succ_div_of_bits t (fun p hp => h p (by omega))
    have h2 := testBit_div (n := n) (t := t)
    rw [if_pos (h t ht)] at h2
    rw [Nat.testBit_eq_decide_div_mod_eq, h1, h2]
    simp; omega
  · split
    · rename_i _ ht
      subst ht
      have h1 := succ_div_of_bits t h
      have h2 := testBit_div (n := n) (t := t)
      rw [hr] at h2
      rw [Nat.testBit_eq_decide_div_mod_eq, h1, h2]
      simp
    · exact testBit_of_div (succ_div_above h hr (by omega))

/-- The rows of the trees of height at least `r`. -/
def rowsFrom (n r : ℕ) : List ℕ := (treeRows n 64).filter fun t => r ≤ t

theorem mem_rowsFrom {n r t : ℕ} : t ∈ rowsFrom n r ↔ r ≤ t ∧ t < 64 ∧ n.testBit t = true := by
  unfold rowsFrom; rw [List.mem_filter, mem_treeRows]; simp; tauto

theorem rowsFrom_sorted (n r : ℕ) : (rowsFrom n r).Pairwise (· > ·) := (treeRows_sorted n 64).filter _

theorem sorted_gt_ext {a b : List ℕ} (ha : a.Pairwise (· > ·)) (hb : b.Pairwise (· > ·)) (h : ∀ x, x ∈ a ↔ x ∈ b) :
    a = b := by
  have pa : a.Nodup := ha.imp (fun h => by omega)
  have pb : b.Nodup := hb.imp (fun h => by omega)
  exact List.Perm.eq_of_pairwise (fun x y _ _ h1 h2 => by omega) ha hb ((List.perm_ext_iff_of_nodup pa pb).2 h)

theorem rowsFrom_zero (n : ℕ) : rowsFrom n 0 = treeRows n 64 := by
  unfold rowsFrom; rw [List.filter_eq_self]; simp

theorem rowsFrom_snoc_sorted {n r : ℕ} : (rowsFrom n (r + 1) ++ [r]).Pairwise (· > ·) := by
  rw [List.pairwise_append]
  refine ⟨rowsFrom_sorted _ _, by simp, ?_⟩
  intro a ha b hb
  have := (mem_rowsFrom.1 ha).1
  simp at hb; omega

theorem rowsFrom_bit {n r : ℕ} (hr : r < 64) (h : n.testBit r = true) : rowsFrom n r = rowsFrom n (r + 1) ++ [r] := by
  apply sorted_gt_ext (rowsFrom_sorted _ _) rowsFrom_snoc_sorted
  intro x
  rw [List.mem_append, mem_rowsFrom, mem_rowsFrom, List.mem_singleton]
  constructor
  · rintro ⟨h1, h2, h3⟩
    rcases Nat.lt_or_eq_of_le h1 with g | g
    · exact .inl ⟨g, h2, h3⟩
    · exact .inr g.symm
  · rintro (⟨h1, h2, h3⟩ | rfl)
    · exact ⟨by omega, h2, h3⟩
    · exact ⟨le_rfl, hr, h⟩

theorem rowsFrom_nobit {n r : ℕ} (h : n.testBit r = false) : rowsFrom n r = rowsFrom n (r + 1) := by
  apply sorted_gt_ext (rowsFrom_sorted _ _) (rowsFrom_sorted _ _)
  intro x
  rw [mem_rowsFrom, mem_rowsFrom]
  constructor
  · rintro ⟨h1, h2, h3⟩
    rcases Nat.lt_or_eq_of_le h1 with g | g
    · exact ⟨g, h2, h3⟩
    · subst g; rw [h] at h3; simp at h3
  · rintro ⟨h1, h2, h3⟩
    exact ⟨by omega, h2, h3⟩

theorem treeRows_succ {n r : ℕ} (hr : r < 64) (h : ∀ p, p < r → n.testBit p = true) (hb : n.testBit r = false) :
    treeRows (n + 1) 64 = rowsFrom n r ++ [r] := by
  rw [rowsFrom_nobit hb]
  apply sorted_gt_ext (treeRows_sorted _ _) rowsFrom_snoc_sorted
  intro x
  rw [List.mem_append, mem_rowsFrom, mem_treeRows, List.mem_singleton, succ_testBit h hb]
  constructor
  · rintro ⟨h1, h2⟩
    split at h2
    · simp at h2
    · split at h2
      · exact .inr ‹_›
      · exact .inl ⟨by omega, h1, h2⟩
  · rintro (⟨h1, h2, h3⟩ | rfl)
    · rw [if_neg (by omega), if_neg (by omega)]; exact ⟨h2, h3⟩
    · simp [hr]

/-- The least row without a tree. -/
theorem exists_zero_bit {n : ℕ} (hn : n < 2 ^ 63) : ∃ r, r < 64 ∧ (∀ p, p < r → n.testBit p = true) ∧ n.testBit r = false := by
  have hex : ∃ r, n.testBit r = false := ⟨63, Nat.testBit_lt_two_pow hn⟩
  refine ⟨Nat.find hex, ?_, ?_, Nat.find_spec hex⟩
  · have := Nat.find_min' hex (Nat.testBit_lt_two_pow hn); omega
  · intro p hp
    have := Nat.find_min hex hp
    simpa using this

namespace Ram

/-! ## Allocation -/

/-- The rows are long enough for `N` leaves. -/
def Cap (ext : List (List H)) (N : ℕ) : Prop :=
  ∀ r, r ≤ St.numRows N → ∃ row, ext[r]? = some row ∧ N / 2 ^ r ≤ row.length

theorem Cap.rows {ext : List (List H)} {N : ℕ} (h : Cap ext N) : St.numRows N < ext.length := by
  obtain ⟨row, h1, -⟩ := h _ le_rfl
  exact lt_of_get h1

theorem vecResize_length {α : Type} (v : List α) (k : ℕ) (d : α) : (vecResize v k d).length = k := by
  unfold vecResize; simp; omega

theorem vecResize_get {α : Type} {v : List α} {k : ℕ} {d : α} {i : ℕ} {x : α} (h : v[i]? = some x) (hi : i < k) :
    (vecResize v k d)[i]? = some x := by
  have := lt_of_get h
  unfold vecResize
  rw [List.getElem?_append_left (by simp; omega), List.getElem?_take, if_pos hi, h]

theorem prealloc_ok {N : ℕ} (hN : N ≤ 2 ^ 62) : ∀ (k row : ℕ) (data : List (List H)), row + k = St.numRows N + 1 →
    row ≤ data.length →
    (∀ r, r < row → ∃ l, data[r]? = some l ∧ N / 2 ^ r ≤ l.length) →
    ∃ data', prealloc N row k data = .ok data' ∧ Cap data' N ∧ data.length ≤ data'.length ∧
      ∀ r i x, i < N / 2 ^ r → cell data r i = some x → cell data' r i = some x := by
  have hR := numRows_le_62 hN
  intro k
  induction k with
  | zero =>
    intro row data hk _ hc
    exact ⟨data, rfl, fun r hr => hc r (by omega), le_rfl, fun _ _ _ _ h => h⟩
  | succ k ih =>
    intro row data hk hl hc
    unfold prealloc
    set d1 := if row ≥ data.length then data ++ [[]] else data with hd1
    have hlen1 : row < d1.length ∧ data.length ≤ d1.length := by
      rw [hd1]; split
      · simp; omega
      · omega
    have hcell1 : ∀ (r : ℕ) (l : List H), data[r]? = some l → d1[r]? = some l := by
      intro r l h
      rw [hd1]; split
      · rw [List.getElem?_append_left (lt_of_get h), h]
      · exact h
    obtain ⟨l, hrow⟩ : ∃ l, d1[row]? = some l := ⟨_, List.getElem?_eq_getElem hlen1.1⟩
    obtain ⟨data', g1, g2, g3, g4⟩ := ih (row + 1) (d1.set row (vecResize l (N / 2 ^ row) HashOps.zero)) (by omega)
      (by simp; omega) (by
        intro r hr
        rw [List.getElem?_set]
        by_cases hrr : row = r
        · subst hrr
          refine ⟨vecResize l (N / 2 ^ row) HashOps.zero, by simp [hlen1.1], by rw [vecResize_length]⟩
        · rw [if_neg hrr]
          obtain ⟨l', h1, h2⟩ := hc r (by omega)
          exact ⟨l', hcell1 r l' h1, h2⟩)
    refine ⟨data', ?_, g2, by rw [List.length_set] at g3; omega, ?_⟩
    · show (vecAt d1 row >>= _) = _
      rw [vecAt_ok hrow, ok_bind, shr64_ok (by omega), ok_bind, g1]
    · intro r i x hi h
      apply g4 r i x hi
      obtain ⟨l', h1, h2⟩ := cell_some h
      have h3 := hcell1 r l' h1
      rw [cell_set hlen1.1]
      by_cases hrr : r = row
      · subst hrr
        rw [hrow] at h3
        injection h3 with h3
        subst h3
        rw [if_pos rfl]
        exact vecResize_get h2 hi
      · rw [if_neg hrr]
        unfold cell
        rw [h3]; exact h2

/-! ## Adding one leaf -/

theorem mt_update {f : ℕ → H} {n : ℕ} {h : H} {r i : ℕ} (hi : i < n / 2 ^ r) :
    mt (Function.update f n h) r i = mt f r i := by
  apply mt_congr
  intro x hx
  rw [Function.update_of_ne]
  rintro rfl
  omega

/-- The state inside the merge loop of `Add` before row `r`. -/
structure Merging (s : RamForest H) (n N : ℕ) (f : ℕ → H) (r : ℕ) (ext0 : List (List H)) : Prop where
  num : s.numLeaves = n
  cap : Cap s.ext N
  len : s.ext.length = ext0.length
  low : ∀ q, q ≤ r → ∀ i, i < (n + 1) / 2 ^ q → cell s.ext q i = some (mt f q i)
  high : ∀ q, r < q → ∀ i, i < n / 2 ^ q → cell s.ext q i = some (mt f q i)
  roots : s.roots.map RNode.hash = ((rowsFrom n r).map fun t => some (mt f t (rootIdx n t))) ++
    [some (mt f r (n / 2 ^ r))]

theorem set_cap {ext : List (List H)} {N r : ℕ} {row row' : List H} (h : Cap ext N) (hr : ext[r]? = some row)
    (hl : row.length ≤ row'.length) : Cap (ext.set r row') N := by
  intro q hq
  obtain ⟨l, h1, h2⟩ := h q hq
  rw [List.getElem?_set]
  by_cases hqr : r = q
  · subst hqr
    rw [hr] at h1
    injection h1 with h1
    subst h1
    exact ⟨row', by simp [lt_of_get hr], by omega⟩
  · exact ⟨l, by rw [if_neg hqr]; exact h1, h2⟩

theorem mergeRoot_ok {s : RamForest H} {n N : ℕ} {f : ℕ → H} {r : ℕ} {ext0 : List (List H)}
    (hm : Merging s n N f r ext0) (hN : N ≤ 2 ^ 62) (hnN : n + 1 ≤ N) (hbits : ∀ p, p ≤ r → n.testBit p = true) :
    ∃ s', mergeRoot s (posOf (St.numRows n) (r + 1) (n / 2 ^ (r + 1))) (mt f (r + 1) (n / 2 ^ (r + 1))) =
      .ok ({ hash := some (mt f (r + 1) (n / 2 ^ (r + 1))), numLeaves := n,
             pos := posOf (St.numRows n) (r + 1) (n / 2 ^ (r + 1)) }, s') ∧ Merging s' n N f (r + 1) ext0 ∧
      s'.posmap = s.posmap := by
  have hn62 : n ≤ 2 ^ 62 := by omega
  have hR := numRows_le_62 hn62
  have hnR : n ≤ 2 ^ St.numRows n := le_two_pow_numRows (by omega)
  have hbr := hbits r le_rfl
  have hsplit := testBit_div (n := n) (t := r)
  rw [if_pos hbr] at hsplit
  -- the row and the index of the new node
  have hr : r ≤ St.numRows n ∧ n / 2 ^ (r + 1) < 2 ^ (St.numRows n - (r + 1)) := by
    obtain ⟨h1, h2⟩ := row_le hn62 (show 2 * (n / 2 ^ (r + 1)) < n / 2 ^ r by omega)
    refine ⟨h1, ?_⟩
    rcases Nat.eq_or_lt_of_le h1 with h | h
    · rw [← h, Nat.sub_self, pow_zero] at h2
      rw [show St.numRows n - (r + 1) = 0 by omega, pow_zero]; omega
    · have e : 2 ^ (St.numRows n - r) = 2 * 2 ^ (St.numRows n - (r + 1)) := by
        rw [show St.numRows n - r = St.numRows n - (r + 1) + 1 by omega, pow_succ]; ring
      omega
  have hidx : n / 2 ^ (r + 1) < N / 2 ^ (r + 1) := by
    have h1 := succ_div_of_bits (n := n) (r + 1) (fun p hp => hbits p (by omega))
    have h2 : (n + 1) / 2 ^ (r + 1) ≤ N / 2 ^ (r + 1) := Nat.div_le_div_right hnN
    omega
  obtain ⟨hrN, -⟩ := row_le hN hidx
  obtain ⟨row, hrow, hlen⟩ := hm.cap (r + 1) hrN
  have h64 : r < 64 := by omega
  have hroots := hm.roots
  rw [rowsFrom_bit h64 hbr] at hroots
  have hrl : s.roots.length = (rowsFrom n (r + 1)).length + 2 := by
    have := congrArg List.length hroots
    simpa using this
  set v := mt f (r + 1) (n / 2 ^ (r + 1)) with hv
  set p := posOf (St.numRows n) (r + 1) (n / 2 ^ (r + 1)) with hp
  set row' := (row ++ [v]).set (n / 2 ^ (r + 1)) v with hrow'
  have hlast : row'[row'.length - 1]? = some v := by
    have hl : row'.length = row.length + 1 := by rw [hrow']; simp
    rw [hl, Nat.add_sub_cancel, hrow', List.getElem?_set, if_neg (by omega)]
    simp
  refine ⟨{ s with roots := s.roots.dropLast.dropLast ++ [{ hash := some v, numLeaves := n, pos := p }],
                   ext := s.ext.set (r + 1) row' }, ?_, ⟨hm.num, ?_, ?_, ?_, ?_, ?_⟩, rfl⟩
  · unfold mergeRoot
    rw [cassert_true (by simp; omega), ok_bind]
    simp only [hm.num]
    rw [hp, detectRow_posOf (by omega) (by omega) hr.2, ok_bind, cassert_true (by simpa using lt_of_get hrow), ok_bind,
      vecAt_ok hrow, ok_bind, rowOffset_posOf (by omega) (by omega) (by omega) hr.2, ok_bind,
      posOf_sub64 hn62 (by omega) hr.2, vecSet_ok (by simp; omega), ok_bind, ← hrow', vecGet_ok hlast, ok_bind]
    rfl
  · exact set_cap hm.cap hrow (by rw [hrow']; simp)
  · simpa using hm.len
  · intro q hq i hi
    show cell (s.ext.set (r + 1) row') q i = _
    rw [cell_set (lt_of_get hrow)]
    by_cases hqr : q = r + 1
    · subst hqr
      rw [if_pos rfl, hrow', List.getElem?_set]
      have h1 := succ_div_of_bits (n := n) (r + 1) (fun p hp => hbits p (by omega))
      by_cases hie : n / 2 ^ (r + 1) = i
      · rw [if_pos hie, if_pos (by simp; omega), hv, hie]
      · rw [if_neg hie, List.getElem?_append_left (by omega)]
        have h2 := hm.high (r + 1) (by omega) i (by omega)
        unfold cell at h2
        rw [hrow] at h2; exact h2
    · rw [if_neg hqr]; exact hm.low q (by omega) i hi
  · intro q hq i hi
    show cell (s.ext.set (r + 1) row') q i = _
    rw [cell_set (lt_of_get hrow), if_neg (by omega)]
    exact hm.high q (by omega) i hi
  · show (s.roots.dropLast.dropLast ++ [_]).map RNode.hash = _
    rw [List.map_append, List.map_dropLast, List.map_dropLast, hroots, List.map_append]
    simp [List.dropLast_append_of_ne_nil, hv]

theorem mergeLoop_ok {n N : ℕ} {f : ℕ → H} {ext0 : List (List H)} (hN : N ≤ 2 ^ 62) (hnN : n + 1 ≤ N) {t : ℕ}
    (ht : t < 64) (hbits : ∀ p, p < t → n.testBit p = true) (hz : n.testBit t = false) :
    ∀ (k r fuel : ℕ) (s : RamForest H) (nr : RNode H), r + k = t → k < fuel → Merging s n N f r ext0 →
    nr.hash = some (mt f r (n / 2 ^ r)) → nr.pos = posOf (St.numRows n) r (n / 2 ^ r) →
    ∃ s', Acc.mergeLoop vt n fuel r ((rowsFrom n r).length - 1 : ℤ) nr s = .ok s' ∧ Merging s' n N f t ext0 ∧
      s'.posmap = s.posmap := by
  have hn62 : n ≤ 2 ^ 62 := by omega
  have hR := numRows_le_62 hn62
  intro k
  induction k with
  | zero =>
    intro r fuel s nr hk hf hm hh hp
    obtain ⟨fl, rfl⟩ : ∃ fl, fuel = fl + 1 := ⟨fuel - 1, by omega⟩
    have : r = t := by omega
    subst this
    refine ⟨s, ?_, hm, rfl⟩
    rw [Acc.mergeLoop, hasRoot_eq ht, ok_bind, hz]
    rfl
  | succ k ih =>
    intro r fuel s nr hk hf hm hh hp
    obtain ⟨fl, rfl⟩ : ∃ fl, fuel = fl + 1 := ⟨fuel - 1, by omega⟩
    have hbr := hbits r (by omega)
    have hsplit := testBit_div (n := n) (t := r)
    rw [if_pos hbr] at hsplit
    obtain ⟨h1, h2⟩ := row_le hn62 (show 2 * (n / 2 ^ (r + 1)) < n / 2 ^ r by omega)
    have hnR : n ≤ 2 ^ St.numRows n := le_two_pow_numRows (by omega)
    have hlt : n / 2 ^ r < 2 ^ (St.numRows n + 1 - r) := by
      have : 2 ^ (St.numRows n + 1 - r) = 2 * 2 ^ (St.numRows n - r) := by
        rw [show St.numRows n + 1 - r = St.numRows n - r + 1 by omega, pow_succ]; ring
      omega
    obtain ⟨s1, a1, a2, a3⟩ := mergeRoot_ok hm hN hnN (fun p hp => hbits p (by omega))
    obtain ⟨s2, b1, b2, b3⟩ := ih (r + 1) fl s1
      { hash := some (mt f (r + 1) (n / 2 ^ (r + 1))), numLeaves := n,
        pos := posOf (St.numRows n) (r + 1) (n / 2 ^ (r + 1)) } (by omega) (by omega) a2 rfl rfl
    refine ⟨s2, ?_, b2, b3.trans a3⟩
    -- the root merged with
    have hroots := hm.roots
    rw [rowsFrom_bit (by omega) hbr] at hroots
    have hget : (s.roots.map RNode.hash)[(rowsFrom n (r + 1)).length]? = some (some (mt f r (rootIdx n r))) := by
      rw [hroots]
      simp
    rw [List.getElem?_map, Option.map_eq_some_iff] at hget
    obtain ⟨l, hl1, hl2⟩ := hget
    rw [Acc.mergeLoop, hasRoot_eq (by omega), ok_bind, hbr, if_pos rfl]
    have hidx : ((rowsFrom n r).length - 1 : ℤ) = ((rowsFrom n (r + 1)).length : ℤ) := by
      rw [rowsFrom_bit (by omega) hbr]; simp
    have hra : Acc.rootAt s ((rowsFrom n r).length - 1 : ℤ) = .ok l := by
      unfold Acc.rootAt
      rw [hidx, if_pos (by omega), Int.toNat_natCast, vecGet_ok hl1]
    rw [hra, ok_bind]
    have hlh : vt.nodeHash s l = .ok (mt f r (rootIdx n r)) := by
      show nodeHash s l = _
      unfold nodeHash; rw [hl2]
    have hrh : vt.nodeHash s nr = .ok (mt f r (n / 2 ^ r)) := by
      show nodeHash s nr = _
      unfold nodeHash; rw [hh]
    have hpp : St.parent n (vt.nodePos nr) = .ok (posOf (St.numRows n) (r + 1) (n / 2 ^ (r + 1))) := by
      show St.parent n nr.pos = _
      rw [hp, parent_posOf (by omega) h1 hlt, pow_succ, Nat.div_div_eq_div_mul]
    rw [hlh, ok_bind, hrh, ok_bind, hpp, ok_bind]
    have hph : HashOps.ph (mt f r (rootIdx n r)) (mt f r (n / 2 ^ r)) = mt f (r + 1) (n / 2 ^ (r + 1)) := by
      rw [mt_succ, rootIdx_le, hsplit]
    have a1' : vt.mergeRoot s (posOf (St.numRows n) (r + 1) (n / 2 ^ (r + 1))) (mt f (r + 1) (n / 2 ^ (r + 1))) = _ := a1
    rw [hph, a1', ok_bind, hidx]
    exact b1

theorem exact_insert {m : PosMap H} {f : ℕ → H} {n : ℕ} {h : H} (e : PosMap.Exact m f n) (hf : ∀ x, x < n → f x ≠ h) :
    PosMap.Exact (PosMap.insert m h n) (Function.update f n h) (n + 1) := by
  have hnone : PosMap.find m h = none := by
    cases hx : PosMap.find m h with
    | none => rfl
    | some p =>
      obtain ⟨h1, h2⟩ := (e.find h p).1 hx
      exact absurd h2 (hf p h1)
  refine ⟨e.uniq.insert _ _, by rw [PosMap.length_insert_new hnone, e.len], ?_⟩
  intro k p
  rw [PosMap.find_insert]
  by_cases hk : k = h
  · subst hk
    rw [if_pos rfl]
    constructor
    · intro h; injection h with h; subst h; simp
    · rintro ⟨h1, h2⟩
      rcases Nat.lt_or_eq_of_le (Nat.le_of_lt_succ h1) with g | g
      · rw [Function.update_of_ne (by omega)] at h2
        exact absurd h2 (hf p g)
      · rw [g]
  · rw [if_neg hk, e.find]
    constructor
    · rintro ⟨h1, h2⟩
      exact ⟨by omega, by rw [Function.update_of_ne (by omega)]; exact h2⟩
    · rintro ⟨h1, h2⟩
      rcases Nat.lt_or_eq_of_le (Nat.le_of_lt_succ h1) with g | g
      · rw [Function.update_of_ne (by omega)] at h2
        exact ⟨g, h2⟩
      · rw [g, Function.update_self] at h2
        exact absurd h2.symm hk

theorem newLeaf_ok {s : RamForest H} {n N : ℕ} {f : ℕ → H} {leaf : Leaf H} (hs : s.numLeaves = n)
    (hc : Cells s.ext n (mt f)) (hcap : Cap s.ext N)
    (hroots : s.roots.map RNode.hash = (treeRows n 64).map fun t => some (mt f t (rootIdx n t))) (hnN : n + 1 ≤ N) :
    ∃ s', newLeaf s leaf = .ok ({ hash := some leaf.1, numLeaves := n, pos := n }, s') ∧
      Merging s' n N (Function.update f n leaf.1) 0 s.ext ∧ s'.posmap = PosMap.insert s.posmap leaf.1 n := by
  obtain ⟨row0, hrow, hlen⟩ := hcap 0 (Nat.zero_le _)
  rw [pow_zero, Nat.div_one] at hlen
  refine ⟨{ s with ext := s.ext.set 0 (row0.set n leaf.1),
                   roots := s.roots ++ [{ hash := some leaf.1, numLeaves := n, pos := n }],
                   posmap := PosMap.insert s.posmap leaf.1 n }, ?_, ⟨hs, ?_, ?_, ?_, ?_, ?_⟩, rfl⟩
  · unfold newLeaf
    simp only [hs]
    rw [vecGet_ok hrow, ok_bind, vecSet_ok (by omega), ok_bind]
    rfl
  · exact set_cap hcap hrow (by simp)
  · simp
  · intro q hq i hi
    have : q = 0 := by omega
    subst this
    rw [pow_zero, Nat.div_one] at hi
    show cell (s.ext.set 0 _) 0 i = _
    rw [cell_set (lt_of_get hrow), if_pos rfl, List.getElem?_set, mt_zero]
    by_cases hin : n = i
    · subst hin
      rw [if_pos rfl, if_pos (by omega), Function.update_self]
    · rw [if_neg hin, Function.update_of_ne (by omega)]
      have := hc.get 0 i (by simp; omega)
      unfold cell at this
      rw [hrow] at this; exact this
  · intro q hq i hi
    show cell (s.ext.set 0 _) q i = _
    rw [cell_set (lt_of_get hrow), if_neg (by omega), mt_update hi]
    exact hc.get q i hi
  · show (s.roots ++ [_]).map RNode.hash = _
    rw [List.map_append, hroots, rowsFrom_zero]
    congr 1
    · apply List.map_congr_left
      intro t ht
      rw [mt_update (root_in (mem_treeRows.1 ht).2)]
    · simp [mt_zero]

theorem addOne_ok {s : RamForest H} {n N : ℕ} {f : ℕ → H} {leaf : Leaf H} (h : Inv s n f) (hcap : Cap s.ext N)
    (hN : N ≤ 2 ^ 62) (hnN : n + 1 ≤ N) (hfresh : ∀ x, x < n → f x ≠ leaf.1) :
    ∃ s', Acc.addOne vt s leaf = .ok s' ∧ Inv s' (n + 1) (Function.update f n leaf.1) ∧ Cap s'.ext N ∧
      s'.ext.length = s.ext.length := by
  have hn62 : n ≤ 2 ^ 62 := by omega
  have hR := numRows_le_62 hn62
  obtain ⟨t, ht, hbits, hz⟩ := exists_zero_bit (n := n) (by omega)
  obtain ⟨s1, a1, a2, a3⟩ := newLeaf_ok (leaf := leaf) h.num h.cells hcap h.roots hnN
  obtain ⟨s2, b1, b2, b3⟩ := mergeLoop_ok hN hnN ht hbits hz t 0 66 s1 { hash := some leaf.1, numLeaves := n, pos := n }
    (by omega) (by omega) a2 (by simp [mt_zero]) (by simp [posOf_zero])
  have hrl : s.roots.length = (rowsFrom n 0).length := by
    have := congrArg List.length h.roots
    rw [rowsFrom_zero]; simpa using this
  -- the state with the new leaf count
  have hinv : ∀ roots', roots'.map RNode.hash = s2.roots.map RNode.hash →
      Inv { s2 with numLeaves := n + 1, roots := roots' } (n + 1) (Function.update f n leaf.1) := by
    intro roots' hr'
    refine ⟨rfl, ⟨?_, ?_⟩, ?_, ?_⟩
    · show St.numRows (n + 1) < s2.ext.length
      have h1 := b2.cap.rows
      have h2 : St.numRows (n + 1) ≤ St.numRows N :=
        (numRows_le_iff (by omega) _).2 (le_trans hnN (le_two_pow_numRows (by omega)))
      omega
    · intro q i hi
      show cell s2.ext q i = _
      rcases Nat.lt_or_ge t q with hq | hq
      · rw [succ_div_above hbits hz hq] at hi
        exact b2.high q hq i hi
      · exact b2.low q hq i hi
    · show PosMap.Exact s2.posmap _ _
      rw [b3, a3]
      exact exact_insert h.pos hfresh
    · show roots'.map RNode.hash = _
      rw [hr', b2.roots, treeRows_succ ht hbits hz, List.map_append]
      congr 1
      · apply List.map_congr_left
        intro q hq
        obtain ⟨h1, h2, h3⟩ := mem_rowsFrom.1 hq
        have hq : t < q := by
          rcases Nat.lt_or_eq_of_le h1 with g | g
          · exact g
          · subst g; rw [hz] at h3; simp at h3
        rw [rootIdx_le, rootIdx_le, succ_div_above hbits hz (by omega)]
      · have h2 := testBit_div (n := n) (t := t)
        rw [hz] at h2
        rw [List.map_singleton, rootIdx_le, succ_div_above hbits hz (by omega), h2]
        simp
  unfold Acc.addOne
  have a1' : vt.newLeaf s leaf = _ := a1
  simp only [h.num]
  rw [a1', ok_bind]
  simp only
  rw [hrl, b1, ok_bind]
  simp only [b2.num]
  rw [wrap64_ok (by omega)]
  by_cases hgrow : St.numRows n = 0 ∨ St.numRows n = St.numRows (n + 1)
  · rw [if_pos hgrow]
    exact ⟨_, rfl, hinv s2.roots rfl, b2.cap, b2.len⟩
  · rw [if_neg hgrow]
    push Not at hgrow
    obtain ⟨g1, g2⟩ := hgrow
    -- a full forest grows by a row, so that there are two trees
    have hnR : n ≤ 2 ^ St.numRows n := le_two_pow_numRows (by omega)
    have hfull : n = 2 ^ St.numRows n := by
      by_contra hne
      apply g2
      have h1 : St.numRows (n + 1) ≤ St.numRows n := (numRows_le_iff (by omega) _).2 (by omega)
      have h2 : St.numRows n ≤ St.numRows (n + 1) :=
        (numRows_le_iff (by omega) _).2 (le_trans (by omega) (le_two_pow_numRows (n := n + 1) (by omega)))
      omega
    have hlen : s2.roots.length ≥ 2 := by
      have hl := congrArg List.length b2.roots
      simp only [List.length_map, List.length_append, List.length_singleton] at hl
      have hb0 : n.testBit 0 = false := by
        rw [hfull, Nat.testBit_two_pow]; simp; omega
      have ht0 : t = 0 := by
        by_contra hne
        have := hbits 0 (by omega)
        rw [hb0] at this; simp at this
      have hmem : St.numRows n ∈ rowsFrom n t := by
        rw [mem_rowsFrom]
        refine ⟨by omega, by omega, ?_⟩
        rw [hfull, Nat.testBit_two_pow, ← hfull]; simp
      have := List.length_pos_of_mem hmem
      omega
    have hR' : St.numRows (n + 1) ≤ 62 := numRows_le_62 (by omega)
    match hrs : s2.roots, hlen with
    | r0 :: r1 :: rest, _ =>
      simp only
      rw [rootPosition_eq (n := n + 1) (by omega) (Nat.zero_le _), ok_bind,
        rootPosition_eq (n := n + 1) (by omega) (by omega), ok_bind]
      refine ⟨_, rfl, hinv _ ?_, b2.cap, b2.len⟩
      rw [hrs]
      rfl

/-- The leaves after appending `L` at position `n`. -/
def addLeaves (f : ℕ → H) (n : ℕ) : List H → ℕ → H
  | [] => f
  | h :: t => addLeaves (Function.update f n h) (n + 1) t

theorem addLeaves_below : ∀ (L : List H) (f : ℕ → H) (n x : ℕ), x < n → addLeaves f n L x = f x := by
  intro L
  induction L with
  | nil => intro f n x _; rfl
  | cons h t ih =>
    intro f n x hx
    rw [addLeaves, ih _ _ _ (by omega), Function.update_of_ne (by omega)]

theorem addLeaves_get : ∀ (L : List H) (f : ℕ → H) (n i : ℕ) (h : H), L[i]? = some h → addLeaves f n L (n + i) = h := by
  intro L
  induction L with
  | nil => intro f n i h hi; simp at hi
  | cons a t ih =>
    intro f n i h hi
    cases i with
    | zero =>
      rw [addLeaves, addLeaves_below _ _ _ _ (by omega), Nat.add_zero, Function.update_self]
      simpa using hi
    | succ i =>
      rw [addLeaves, show n + (i + 1) = n + 1 + i by omega]
      exact ih _ _ _ _ (by simpa using hi)

theorem addAll_ok {N : ℕ} (hN : N ≤ 2 ^ 62) : ∀ (leaves : List (Leaf H)) (s : RamForest H) (n : ℕ) (f : ℕ → H),
    Inv s n f → Cap s.ext N → n + leaves.length ≤ N → (leaves.map Prod.fst).Nodup →
    (∀ x, x < n → ∀ l ∈ leaves, f x ≠ l.1) →
    ∃ s', Acc.add vt s leaves = .ok s' ∧ Inv s' (n + leaves.length) (addLeaves f n (leaves.map Prod.fst)) ∧
      s'.ext.length = s.ext.length := by
  intro leaves
  induction leaves with
  | nil => intro s n f h _ _ _ _; exact ⟨s, rfl, h, rfl⟩
  | cons l ls ih =>
    intro s n f h hcap hlen hnd hfresh
    simp only [List.length_cons] at hlen
    rw [List.map_cons, List.nodup_cons] at hnd
    obtain ⟨s1, a1, a2, a3, a4⟩ := addOne_ok (leaf := l) h hcap hN (by omega) (fun x hx => hfresh x hx l (by simp))
    obtain ⟨s2, b1, b2, b3⟩ := ih s1 (n + 1) _ a2 a3 (by omega) hnd.2 (by
      intro x hx l' hl'
      by_cases hxn : x = n
      · subst hxn
        rw [Function.update_self]
        intro he
        exact hnd.1 (he ▸ List.mem_map_of_mem hl')
      · rw [Function.update_of_ne hxn]
        exact hfresh x (by omega) l' (by simp [hl']))
    refine ⟨s2, ?_, ?_, b3.trans a4⟩
    · unfold Acc.add at b1 ⊢
      rw [List.foldlM_cons, a1, ok_bind, b1]
    · rw [List.length_cons, List.map_cons, addLeaves, show n + (ls.length + 1) = n + 1 + ls.length by omega]
      exact b2

/-- `RamForest::Add` with fresh leaves. -/
theorem add_ok {s : RamForest H} {n : ℕ} {f : ℕ → H} {leaves : List (Leaf H)} (h : Inv s n f)
    (hN : n + leaves.length ≤ 2 ^ 62) (hnd : (leaves.map Prod.fst).Nodup)
    (hfresh : ∀ x, x < n → ∀ l ∈ leaves, f x ≠ l.1) :
    ∃ s', add s leaves = .ok s' ∧ Inv s' (n + leaves.length) (addLeaves f n (leaves.map Prod.fst)) ∧
      s.ext.length ≤ s'.ext.length := by
  obtain ⟨data, a1, a2, a3, a4⟩ := prealloc_ok hN (St.numRows (n + leaves.length) + 1) 0 s.ext (by omega)
    (Nat.zero_le _) (by intro r hr; omega)
  have hinv : Inv { s with ext := data } n f := by
    refine ⟨h.num, ⟨?_, ?_⟩, h.pos, h.roots⟩
    · show St.numRows n < data.length
      have := h.cells.rows; omega
    · intro q i hi
      exact a4 q i _ (lt_of_lt_of_le hi (Nat.div_le_div_right (by omega))) (h.cells.get q i hi)
  obtain ⟨s', b1, b2, b3⟩ := addAll_ok hN leaves { s with ext := data } n f hinv a2 le_rfl hnd hfresh
  refine ⟨s', ?_, b2, by rw [b3]; exact a3⟩
  unfold add
  simp only [h.num] at b1 ⊢
  rw [wrap64_ok (by omega), a1, ok_bind, cassert_true (by simpa using a2.rows), ok_bind, b1, ok_bind,
    cassert_true (by simpa using b2.num.symm), ok_bind, cassert_true (by simp [b2.pos.len, b2.num]), ok_bind]
  rfl

end Ram
end Utreexo
