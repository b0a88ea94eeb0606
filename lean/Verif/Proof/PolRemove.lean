import Verif.Proof.PolRead
import Mathlib.Data.Finset.Range
import Mathlib.Data.Finset.Card

/-! # `Pollard::Modify`: removing leaves -/

set_option linter.unusedSectionVars false

namespace Utreexo
open Spec Equiv

variable {H : Type} [DecidableEq H] [HashOps H]

namespace Pol

/-- Leaf `t` is marked as remembered. -/
def Flag (heap : List (INode H)) (rt : ℕ → ℕ → Bool) (A : Addr) (t : ℕ) : Prop := (nz heap (holder rt A 0 t) 0).isSome

theorem Flag.holder {heap : List (INode H)} {rt : ℕ → ℕ → Bool} {A : Addr} {t : ℕ} (h : Flag heap rt A t) :
    ∃ p, Pol.holder rt A 0 t = some p ∧ (nz heap (some p) 0).isSome := by
  unfold Flag at h
  cases hp : Pol.holder rt A 0 t with
  | none => rw [hp, nz_none] at h; simp at h
  | some p => rw [hp] at h; exact ⟨p, rfl, h⟩

/-- A pollard with `n` leaves, objects `A` and hashes `c`. -/
structure PH (s : Pollard H) (n : ℕ) (A : Addr) (c : ℕ → ℕ → H) : Prop where
  num : s.numLeaves = n
  shape : Shape s.ext (rtOf n) A
  hashed : Hashed s.ext A c
  roots : RootsAt s.roots A (rootCoords n)
  pos : 0 < s.ext.length

theorem Shape.kidsFrom {heap : List (INode H)} {rt : ℕ → ℕ → Bool} {A : Addr} (s : Shape heap rt A) (r : ℕ) :
    KidsFrom heap rt A r := fun q y _ h => s.kids q y h

theorem PH.read_ok {s : Pollard H} {n : ℕ} {A : Addr} {c : ℕ → ℕ → H} (h : PH s n A c) (hn : n ≤ 2 ^ 62)
    {r i : ℕ} (hi : i < n / 2 ^ r) :
    read s (posOf (St.numRows n) r i) = .ok ((A r i).map fun _ => c r i) := by
  obtain ⟨t, path, -, -, g, -⟩ := readSiblings_ok h.num hn (h.shape.kidsFrom r) (fun q y p hp => (h.shape.bnd q y p hp).2)
    h.roots hi
  unfold read
  rw [g, ok_bind]
  simp only
  cases ha : A r i with
  | none => rfl
  | some p =>
    obtain ⟨x, hx⟩ := h.shape.get ha
    have hh := h.hashed r i p ha
    rw [hx] at hh
    simp only [Option.map_some, Option.some.injEq] at hh
    simp only
    rw [vecGet_ok hx, ok_bind, hh]
    rfl

theorem PH.readLeafRange_ok {s : Pollard H} {n : ℕ} {A : Addr} {c : ℕ → ℕ → H} (h : PH s n A c) (hn : n ≤ 2 ^ 62) :
    ∀ (len a : ℕ), a + len ≤ n → readLeafRange s a len = .ok (((List.range' a len).filter fun x => (A 0 x).isSome).map (c 0)) := by
  intro len
  induction len with
  | zero => intro a _; rfl
  | succ len ih =>
    intro a ha
    have hl := ih (a + 1) (by omega)
    have h1 := h.read_ok hn (r := 0) (i := a) (by simp; omega)
    rw [posOf_zero] at h1
    rw [readLeafRange, h1, ok_bind, hl, ok_bind, List.range'_succ, List.filter_cons]
    cases A 0 a with
    | none => rfl
    | some p => rfl

/-- The leaves are distinct. -/
def Dist (n : ℕ) (f : ℕ → H) : Prop := ∀ x y, x < n → y < n → f x = f y → x = y

theorem Dist.perm {n : ℕ} {f : ℕ → H} (h : Dist n f) {P : ℕ → ℕ} (hP : ∀ x, x < n → P x < n) (hi : ∀ x y, P x = P y → x = y) :
    Dist n (f ∘ P) := fun x y hx hy he => hi _ _ (h _ _ (hP x hx) (hP y hy) he)

theorem shiftAll_dom (off : ℕ) : ∀ (xs : List H) (m : PosMap H) (h : H),
    (PosMap.find (xs.foldl (Acc.shiftPos off) m) h).isSome = (PosMap.find m h).isSome := by
  intro xs
  induction xs with
  | nil => intro m h; rfl
  | cons x xs ih =>
    intro m h
    rw [List.foldl_cons, ih, PosMap.shift_find]
    split
    · simp
    · rfl

theorem up_swap_bound {n r i j : ℕ} (hi : i < n / 2 ^ r) (hj : j < n / 2 ^ r) {x : ℕ} (hx : x < n) : up r (swap i j) x < n := by
  have b1 := Ram.block_bound (r := 0) (k := r) (by rw [Nat.zero_add]; exact hi)
  have b2 := Ram.block_bound (r := 0) (k := r) (by rw [Nat.zero_add]; exact hj)
  rw [pow_zero, Nat.div_one] at b1 b2
  rw [← Ram.swapIdx_block, PosMap.swapIdx_lt b1 b2]
  exact hx

/-- An entry `v` moved along with a leaf from `a` to `b`, modulo 2^64. -/
def mv (a b v : ℕ) : ℕ := (v + b + (2 ^ 64 - a)) % 2 ^ 64

theorem mv_self {a v : ℕ} (ha : a ≤ 2 ^ 64) (hv : v < 2 ^ 64) : mv a a v = v := by unfold mv; omega

theorem mv_at {a b : ℕ} (ha : a ≤ 2 ^ 64) (hb : b < 2 ^ 64) : mv a b a = b := by unfold mv; omega

theorem mv_lt (a b v : ℕ) : mv a b v < 2 ^ 64 := by unfold mv; omega

theorem mv_comp {a b c v : ℕ} (ha : a ≤ 2 ^ 64) (hb : b ≤ 2 ^ 64) : mv b c (mv a b v) = mv a c v := by unfold mv; omega

theorem PH.updatePosSubtree_ok {s : Pollard H} {n : ℕ} {A : Addr} {c : ℕ → ℕ → H} (h : PH s n A c) (hn : n ≤ 2 ^ 62)
    {r i j : ℕ} (hi : i < n / 2 ^ r) (hj : j < n / 2 ^ r) (hij : i ≠ j) :
    ∃ m, Acc.updatePosSubtree vt s (posOf (St.numRows n) r i) (posOf (St.numRows n) r j) = .ok { s with posmap := m } ∧
      (∀ k, (PosMap.find m k).isSome = (PosMap.find s.posmap k).isSome) ∧
      (Dist n (c 0) → ∀ x, x < n → PosMap.find s.posmap (c 0 x) = some x →
        ((A 0 x).isSome ∨ (x / 2 ^ r ≠ i ∧ x / 2 ^ r ≠ j)) → PosMap.find m (c 0 x) = some (up r (swap i j) x)) ∧
      (Dist n (c 0) → ∀ x v, x < n → v < 2 ^ 64 → PosMap.find s.posmap (c 0 x) = some v →
        PosMap.find m (c 0 x) = some (if (A 0 x).isSome then mv x (up r (swap i j) x) v else v)) := by
  suffices hk : ∃ m, Acc.updatePosSubtree vt s (posOf (St.numRows n) r i) (posOf (St.numRows n) r j) = .ok { s with posmap := m } ∧
      (∀ k, (PosMap.find m k).isSome = (PosMap.find s.posmap k).isSome) ∧
      (Dist n (c 0) → ∀ x v, x < n → v < 2 ^ 64 → PosMap.find s.posmap (c 0 x) = some v →
        PosMap.find m (c 0 x) = some (if (A 0 x).isSome then mv x (up r (swap i j) x) v else v)) by
    obtain ⟨m, h1, h2, h3⟩ := hk
    refine ⟨m, h1, h2, fun hd x hx hf hp => ?_, h3⟩
    rw [h3 hd x x hx (by omega) hf]
    congr 1
    have hb := up_swap_bound hi hj hx
    split
    · exact mv_at (by omega) (by omega)
    · rename_i hn
      rcases hp with hp | hp
      · exact absurd hp hn
      · rw [up_fix (swap_apply_of_ne_of_ne hp.1 hp.2)]
  have hnum := h.num
  subst hnum
  have hR := numRows_le_62 hn
  obtain ⟨r1, i1⟩ := row_le hn hi
  obtain ⟨-, i2⟩ := row_le hn hj
  have e1 := leftDescendant_posOf (n := s.numLeaves) (by omega) (r := 0) (d := r) (i := i) (by omega)
    (by rw [Nat.zero_add]; exact i1)
  have e2 := leftDescendant_posOf (n := s.numLeaves) (by omega) (r := 0) (d := r) (i := j) (by omega)
    (by rw [Nat.zero_add]; exact i2)
  rw [Nat.zero_add] at e1 e2
  have b1 := Ram.block_bound (r := 0) (k := r) (by rw [Nat.zero_add]; exact hi)
  have b2 := Ram.block_bound (r := 0) (k := r) (by rw [Nat.zero_add]; exact hj)
  rw [pow_zero, Nat.div_one] at b1 b2
  have g1 := h.readLeafRange_ok hn _ _ b1
  have g2 := h.readLeafRange_ok hn _ _ b2
  have h62 : (2:ℕ) ^ r ≤ 2 ^ 62 := Nat.pow_le_pow_right (by omega) (by omega)
  have hred : Acc.updatePosSubtree vt s (posOf (St.numRows s.numLeaves) r i) (posOf (St.numRows s.numLeaves) r j) =
      Acc.updatePosRange vt s (i * 2 ^ r) (j * 2 ^ r) (2 ^ r) := by
    unfold Acc.updatePosSubtree
    rw [detectRow_posOf (by omega) (by omega) i1, ok_bind, e1, ok_bind, e2, ok_bind,
      shl64_ok (by omega), ok_bind, one_mul, Nat.mod_eq_of_lt (by omega), posOf_zero, posOf_zero]
  rw [hred]
  unfold Acc.updatePosRange
  by_cases hl : s.posmap.length = 0
  · rw [if_pos hl]
    refine ⟨s.posmap, rfl, fun _ => rfl, ?_⟩
    intro _ x v _ _ hf
    rw [List.eq_nil_of_length_eq_zero hl] at hf
    simp [PosMap.find] at hf
  · rw [if_neg hl]
    have g1' : vt.readLeafRange s (i * 2 ^ r) (2 ^ r) = _ := g1
    have g2' : vt.readLeafRange s (j * 2 ^ r) (2 ^ r) = _ := g2
    rw [g1', ok_bind, g2', ok_bind]
    refine ⟨_, rfl, fun k => by rw [shiftAll_dom, shiftAll_dom], ?_⟩
    intro hd x v hx hv hf
    have hnd : ∀ a len, a + len ≤ s.numLeaves → (((List.range' a len).filter fun x => (A 0 x).isSome).map (c 0)).Nodup := by
      intro a len hal
      apply List.Nodup.map_on _ (List.Nodup.filter _ List.nodup_range')
      intro y hy z hz he
      have hy := List.mem_range'_1.1 (List.mem_filter.1 hy).1
      have hz := List.mem_range'_1.1 (List.mem_filter.1 hz).1
      exact hd y z (by omega) (by omega) he
    have hmem : ∀ a len, a + len ≤ s.numLeaves → (c 0 x ∈ ((List.range' a len).filter fun x => (A 0 x).isSome).map (c 0) ↔
        (a ≤ x ∧ x < a + len) ∧ (A 0 x).isSome = true) := by
      intro a len hal
      rw [List.mem_map]
      constructor
      · rintro ⟨y, hy, he⟩
        obtain ⟨hy1, hy2⟩ := List.mem_filter.1 hy
        have hy1 := List.mem_range'_1.1 hy1
        obtain rfl := hd y x (by omega) hx he
        exact ⟨hy1, hy2⟩
      · rintro ⟨h1, h2⟩
        exact ⟨x, List.mem_filter.2 ⟨List.mem_range'_1.2 h1, h2⟩, rfl⟩
    rw [PosMap.shiftAll_find _ _ _ (hnd _ _ b2), PosMap.shiftAll_find _ _ _ (hnd _ _ b1), hf]
    simp only [hmem _ _ b1, hmem _ _ b2]
    have hdis : i * 2 ^ r + 2 ^ r ≤ j * 2 ^ r ∨ j * 2 ^ r + 2 ^ r ≤ i * 2 ^ r := by
      rcases Nat.lt_or_gt_of_ne hij with h' | h'
      · left
        have := Nat.mul_le_mul_right (2 ^ r) (show i + 1 ≤ j by omega)
        rw [Nat.add_mul, one_mul] at this; exact this
      · right
        have := Nat.mul_le_mul_right (2 ^ r) (show j + 1 ≤ i by omega)
        rw [Nat.add_mul, one_mul] at this; exact this
    rw [← Ram.swapIdx_block]
    unfold PosMap.swapIdx wrap64 sub64 mv
    rw [two64_eq]
    cases hpr : (A 0 x).isSome with
    | false =>
      rw [if_neg (by simp), if_neg (by simp), if_neg (by simp)]
    | true =>
      rw [if_pos rfl]
      by_cases c1 : i * 2 ^ r ≤ x ∧ x < i * 2 ^ r + 2 ^ r
      · have c2 : ¬ (j * 2 ^ r ≤ x ∧ x < j * 2 ^ r + 2 ^ r) := by omega
        rw [if_neg (by tauto), if_pos ⟨c1, rfl⟩, if_pos c1, Option.map_some]
        congr 1; omega
      · rw [if_neg c1]
        by_cases c2 : j * 2 ^ r ≤ x ∧ x < j * 2 ^ r + 2 ^ r
        · rw [if_pos ⟨c2, rfl⟩, if_neg (by tauto), if_pos c2, Option.map_some]
          congr 1; omega
        · rw [if_neg (by tauto), if_neg (by tauto), if_neg c2]
          congr 1; omega

/-! ## Dirty nodes -/

/-- The row of the root above a node. -/
noncomputable def treeOf (n q y : ℕ) : ℕ :=
  open Classical in if h : ∃ t, q ≤ t ∧ InTree n t (y * 2 ^ q) then Classical.choose h else 0

theorem treeOf_eq {n q y t : ℕ} (h1 : q ≤ t) (h2 : InTree n t (y * 2 ^ q)) : treeOf n q y = t := by
  unfold treeOf
  have h : ∃ t, q ≤ t ∧ InTree n t (y * 2 ^ q) := ⟨t, h1, h2⟩
  rw [dif_pos h]
  exact inTree_unique (Classical.choose_spec h).2 h2

/-- The recorded path of node `y` of row `q`, starting with the node. -/
noncomputable def pd (n : ℕ) (A : Addr) (q y : ℕ) : PNode :=
  { e := pentry (St.numRows n) (rtOf n) A q y
    up := upPath (St.numRows n) (rtOf n) A (treeOf n q y - q) (q + 1) (y / 2) }

theorem tree_of_in {n q y : ℕ} (hn : n ≤ 2 ^ 62) (h : y < n / 2 ^ q) : ∃ t, q ≤ t ∧ InTree n t (y * 2 ^ q) := by
  obtain ⟨t, -, -, h1, h2, -⟩ := path_eq (by omega) (inForest_iff.2 h)
  exact ⟨t, h1, h2⟩

theorem inTree_parent {n t q y : ℕ} (h : InTree n t (y * 2 ^ q)) (hq : q < t) : InTree n t (y / 2 * 2 ^ (q + 1)) := by
  refine ⟨h.1, ?_, ?_⟩
  · have h2 := h.2.1
    rw [← rootIdx_mul] at h2 ⊢
    rw [show (2:ℕ) ^ t = 2 ^ (t - (q + 1)) * 2 ^ (q + 1) by rw [← pow_add]; congr 1; omega, ← mul_assoc] at h2 ⊢
    apply Nat.mul_le_mul_right
    rw [pow_succ, ← mul_assoc, mul_comm _ 2, ← mul_assoc] at h2
    have := Nat.le_of_mul_le_mul_right h2 (Nat.two_pow_pos q)
    omega
  · refine lt_of_le_of_lt ?_ h.2.2
    rw [pow_succ, ← mul_assoc, mul_comm _ 2, ← mul_assoc]
    apply Nat.mul_le_mul_right
    omega

theorem pd_up {n : ℕ} {A : Addr} (hn : n ≤ 2 ^ 62) {q y : ℕ} (h : y < n / 2 ^ q) :
    (pd n A q y).up = if rtOf n q y then [] else (pd n A (q + 1) (y / 2)).e :: (pd n A (q + 1) (y / 2)).up := by
  obtain ⟨t, h1, h2⟩ := tree_of_in hn h
  have hr := inTree_root h2 h1
  unfold pd
  simp only
  rw [treeOf_eq h1 h2]
  rcases Nat.eq_or_lt_of_le h1 with he | hlt
  · subst he
    rw [Nat.sub_self, pow_zero, Nat.div_one] at hr
    rw [if_pos (rtOf_true.2 ⟨h2.1, hr⟩), Nat.sub_self]
    rfl
  · have hp := inTree_parent h2 hlt
    have hin := anc_in h2 (q := q + 1) (by omega) hlt
    rw [show q + 1 - q = 1 by omega, pow_one] at hin
    have hf := rtOf_false hin
    rw [hf, treeOf_eq hlt hp, show t - q = t - (q + 1) + 1 by omega, upPath]
    simp

/-- The address map at and above a row. -/
def Above (A A0 : Addr) (r : ℕ) : Prop := ∀ q y, r ≤ q → A q y = A0 q y

theorem Above.holder {A A0 : Addr} {r : ℕ} (h : Above A A0 r) (rt : ℕ → ℕ → Bool) {q y : ℕ} (hq : r ≤ q) :
    holder rt A q y = holder rt A0 q y := by
  unfold Pol.holder; rw [h q y hq, h q _ hq]

theorem Above.mono {A A0 : Addr} {r r' : ℕ} (h : Above A A0 r) (hr : r ≤ r') : Above A A0 r' :=
  fun q y hq => h q y (by omega)

theorem Above.upPath {A A0 : Addr} {r : ℕ} (h : Above A A0 r) (R : ℕ) (rt : ℕ → ℕ → Bool) : ∀ k q y, r ≤ q →
    upPath R rt A k q y = upPath R rt A0 k q y := by
  intro k
  induction k with
  | zero => intros; rfl
  | succ k ih =>
    intro q y hq
    rw [Pol.upPath, Pol.upPath, ih _ _ (by omega)]
    unfold pentry
    rw [h q y hq, h.holder rt hq]

/-- Object and holder of a node exist. -/
def Pres (n : ℕ) (A : Addr) (q y : ℕ) : Prop := (A q y).isSome ∧ (holder (rtOf n) A q y).isSome

theorem Pres.sib {n : ℕ} {A : Addr} {q y : ℕ} (h : Pres n A q y) (hy : y / 2 < n / 2 ^ (q + 1)) : Pres n A q (y ^^^ 1) := by
  have f1 := rtOf_false hy
  have f2 : rtOf n q (y ^^^ 1) = false := rtOf_false (by rw [sb_div]; exact hy)
  unfold Pres at *
  rw [holder_sib f1 f2] at h
  rw [holder_sib f2 (by rw [sb_sb]; exact f1), sb_sb]
  exact h.symm

/-- The ancestors of targets from row `h` on and the siblings of those. -/
def PresFrom (n : ℕ) (A : Addr) (D : List ℕ) (h : ℕ) : Prop :=
  ∀ t ∈ D, ∀ q, h ≤ q → t / 2 ^ q < n / 2 ^ q → Pres n A q (t / 2 ^ q)

/-- Targets with all their ancestors and the siblings of those. -/
def PresAll (n : ℕ) (A : Addr) (D : List ℕ) : Prop := PresFrom n A D 0

/-! ## Exchanging subtrees -/

theorem rt_fix {n r q x i : ℕ} (hq : q < r) (h : rtOf n q x = true) (hi : i < n / 2 ^ r) : x / 2 ^ (r - q) ≠ i := by
  rw [rtOf_true, rootIdx_le] at h
  rw [h.2, root_anc hq]; omega

theorem RootsAt.perm {roots : List PNode} {A : Addr} {n r i j : ℕ} (h : RootsAt roots A (rootCoords n))
    (hi : i < n / 2 ^ r) (hj : j < n / 2 ^ r) : RootsAt roots (permAddr r (swap i j) A) (rootCoords n) := by
  have e : (rootCoords n).map (fun c => permAddr r (swap i j) A c.1 c.2) = (rootCoords n).map fun c => A c.1 c.2 := by
    apply List.map_congr_left
    intro c hc
    unfold rootCoords at hc
    obtain ⟨t, ht, rfl⟩ := List.mem_map.1 hc
    unfold permAddr
    simp only
    split
    · rename_i hlt
      have hrt : rtOf n t (rootIdx n t) = true := rtOf_true.2 ⟨(mem_treeRows.1 ht).2, rfl⟩
      congr 1
      apply up_fix
      rw [swap_apply_of_ne_of_ne (rt_fix hlt hrt hi) (rt_fix hlt hrt hj)]
    · rfl
  exact ⟨by rw [e]; exact h.node, by rw [e]; exact h.sib, h.up⟩

theorem PH.swap_ok {s : Pollard H} {n : ℕ} {A : Addr} {c : ℕ → ℕ → H} (h : PH s n A c) (hn : n ≤ 2 ^ 62)
    {r i j : ℕ} (hi : i < n / 2 ^ r) (hj : j < n / 2 ^ r) (hij : i ≠ j) (pi : Pres n A r i) (pj : Pres n A r j) :
    ∃ d s', swapSubTrees s (posOf (St.numRows n) r i) (posOf (St.numRows n) r j) = .ok (d, s') ∧
      PH s' n (permAddr r (swap i j) A) (permCells r (swap i j) c) ∧ s'.roots = s.roots ∧ s'.posmap = s.posmap ∧
      (∀ q x b, q ≤ r → nz s'.ext (holder (rtOf n) (permAddr r (swap i j) A) q x) b =
        nz s.ext (holder (rtOf n) A q (up (r - q) (swap i j) x)) b) ∧
      ((∀ q, r < q → j / 2 ^ (q - r) < n / 2 ^ q → (holder (rtOf n) A q (j / 2 ^ (q - r))).isSome) →
        j / 2 < n / 2 ^ (r + 1) → d = some (pd n A (r + 1) (j / 2))) := by
  have hR := numRows_le_62 hn
  obtain ⟨r1, i1⟩ := row_le hn hi
  obtain ⟨-, j1⟩ := row_le hn hj
  obtain ⟨ti, pathi, ti1, ti2, gi, gi'⟩ := readSiblings_ok h.num hn (h.shape.kidsFrom r)
    (fun q y p hp => (h.shape.bnd q y p hp).2) h.roots hi
  obtain ⟨tj, pathj, tj1, tj2, gj, gj'⟩ := readSiblings_ok h.num hn (h.shape.kidsFrom r)
    (fun q y p hp => (h.shape.bnd q y p hp).2) h.roots hj
  obtain ⟨ai, hai⟩ := Option.isSome_iff_exists.1 pi.1
  obtain ⟨bi, hbi⟩ := Option.isSome_iff_exists.1 pi.2
  obtain ⟨aj, haj⟩ := Option.isSome_iff_exists.1 pj.1
  obtain ⟨bj, hbj⟩ := Option.isSome_iff_exists.1 pj.2
  have lt : ∀ q y p, A q y = some p → p < s.ext.length := fun q y p hp => (h.shape.bnd q y p hp).2
  have hlt : ∀ q y p, holder (rtOf n) A q y = some p → p < s.ext.length := fun q y p hp => by
    obtain ⟨z, hz⟩ := holder_addr hp; exact lt _ _ _ hz
  have hne1 : ai ≠ aj := by
    intro e; rw [e] at hai; exact hij (h.shape.inj _ _ _ _ _ hai haj).2
  have hne2 : bi ≠ bj := by
    intro e; rw [e] at hbi; exact hij (h.shape.holder_inj hbi hbj).2
  obtain ⟨heap', w1, w2, w3, w4⟩ := swapContents_ok (heap := s.ext) (lt _ _ _ hai) (hlt _ _ _ hbi) (lt _ _ _ haj)
    (hlt _ _ _ hbj) hne1 hne2
  have hrt : ∀ q x, q < r → (x / 2 ^ (r - q) = i ∨ x / 2 ^ (r - q) = j) → rtOf n q x = false := by
    intro q x hq hx
    by_contra hc
    simp only [Bool.not_eq_false] at hc
    rcases hx with hx | hx
    · exact rt_fix hq hc hi hx
    · exact rt_fix hq hc hj hx
  obtain ⟨k1, k2⟩ := h.shape.swap hbi hbj w2 w3 hrt
  rw [hai, hbi] at gi
  rw [haj, hbj] at gj
  -- the recorded path is that of `j`
  have hpath : ∃ path, swapSubTrees s (posOf (St.numRows n) r i) (posOf (St.numRows n) r j) =
      .ok (match path with | [] => none | e :: es => some { e := e, up := es : PNode }, { s with ext := heap' }) ∧
      ((∀ q, r < q → j / 2 ^ (q - r) < n / 2 ^ q → (holder (rtOf n) A q (j / 2 ^ (q - r))).isSome) →
        j / 2 < n / 2 ^ (r + 1) → path = upPath (St.numRows n) (rtOf n) A (tj - r) (r + 1) (j / 2)) := by
    by_cases hs : St.sibling (posOf (St.numRows n) r i) = posOf (St.numRows n) r j
    · have hij2 : i ^^^ 1 = j := by
        rw [sibling_posOf r1] at hs
        unfold posOf at hs; omega
      have hdiv : i / 2 = j / 2 := by rw [← hij2, sb_div]
      have hlow : j / 2 < n / 2 ^ (r + 1) := by
        rw [div_succ_row]
        rw [xor_one_cases] at hij2
        split at hij2 <;> omega
      have f1 := rtOf_false hlow
      have f2 : rtOf n r i = false := rtOf_false (by rw [hdiv]; exact hlow)
      have e1 : bi = aj := by
        rw [holder_sib f2 (by rw [hij2]; exact f1), hij2, haj] at hbi
        exact (Option.some.inj hbi).symm
      have e2 : bj = ai := by
        have : j ^^^ 1 = i := by rw [← hij2, sb_sb]
        rw [holder_sib f1 (by rw [this]; exact f2), this, hai] at hbj
        exact (Option.some.inj hbj).symm
      refine ⟨pathi, ?_, ?_⟩
      · unfold swapSubTrees
        rw [gi, ok_bind]
        simp only [hookIn]
        rw [ok_bind]
        simp only
        rw [if_pos hs]
        simp only [pure_bind]
        rw [e1]
        rw [e1, e2] at w1
        rw [w1, ok_bind]
        rfl
      · intro hall hlow
        have hti : 0 < ti - r := by
          rcases Nat.eq_or_lt_of_le ti1 with he | hl
          · exfalso
            have := inTree_root ti2 ti1
            rw [← he, Nat.sub_self, pow_zero, Nat.div_one] at this
            have h3 : rtOf n r i = true := rtOf_true.2 ⟨by rw [he]; exact ti2.1, this⟩
            rw [f2] at h3; simp at h3
          · omega
        have htj : 0 < tj - r := by
          rcases Nat.eq_or_lt_of_le tj1 with he | hl
          · exfalso
            have := inTree_root tj2 tj1
            rw [← he, Nat.sub_self, pow_zero, Nat.div_one] at this
            have h3 : rtOf n r j = true := rtOf_true.2 ⟨by rw [he]; exact tj2.1, this⟩
            rw [f1] at h3; simp at h3
          · omega
        have htt : ti = tj := by
          have a1 := inTree_parent ti2 (by omega)
          have a2 := inTree_parent tj2 (by omega)
          rw [hdiv] at a1
          exact inTree_unique a1 a2
        rw [gi', hdiv, htt]
        intro q hq hqt
        have e : i / 2 ^ (q - r) = j / 2 ^ (q - r) := by
          rw [div_pow_sub hq, div_pow_sub hq, hdiv]
        rw [e]
        exact hall q hq (anc_in tj2 (by omega) (by omega))
    · refine ⟨pathj, ?_, ?_⟩
      · unfold swapSubTrees
        rw [gi, ok_bind]
        simp only [hookIn]
        rw [ok_bind]
        simp only
        rw [if_neg hs]
        have gj'' : readSiblings { s with ext := s.ext } (posOf (St.numRows n) r j) = _ := gj
        rw [gj'', ok_bind]
        simp only [hookIn]
        rw [ok_bind]
        simp only [pure_bind]
        rw [w1, ok_bind]
        rfl
      · intro hall hlow
        apply gj'
        intro q hq hqt
        exact hall q hq (anc_in tj2 (by omega) hqt)
  obtain ⟨path, p1, p2⟩ := hpath
  refine ⟨_, _, p1, ⟨h.num, k1, Hashed.swap h.shape h.hashed hai haj w4, h.roots.perm hi hj, by rw [w2]; exact h.pos⟩, rfl, rfl, k2, ?_⟩
  intro hall hlow
  rw [p2 hall hlow]
  have htj : r < tj := by
    rcases Nat.eq_or_lt_of_le tj1 with he | hl
    · exfalso
      have := inTree_root tj2 tj1
      rw [← he, Nat.sub_self, pow_zero, Nat.div_one] at this
      have h3 : rtOf n r j = true := rtOf_true.2 ⟨by rw [he]; exact tj2.1, this⟩
      rw [rtOf_false hlow] at h3; simp at h3
    · omega
  rw [show tj - r = tj - (r + 1) + 1 by omega, upPath]
  unfold pd
  rw [treeOf_eq htj (inTree_parent tj2 htj)]

theorem permAddr_mul (r : ℕ) (P Q : Perm ℕ) (A : Addr) :
    permAddr r Q (permAddr r P A) = permAddr r (P * Q) A := by
  funext s x
  unfold permAddr
  split
  · rw [up_mul]; rfl
  · rfl

theorem permAddr_one (r : ℕ) (A : Addr) : permAddr r 1 A = A := by
  funext s x
  unfold permAddr
  rw [up_one]; simp

theorem Above.perm {A A0 : Addr} {r : ℕ} (h : Above A A0 r) (P : Perm ℕ) : Above (permAddr r P A) A0 r := by
  intro q y hq
  unfold permAddr
  rw [if_neg (by omega)]; exact h q y hq

theorem Above.pd {A A0 : Addr} {r : ℕ} (h : Above A A0 r) (n : ℕ) {q : ℕ} (hq : r ≤ q) (y : ℕ) : pd n A q y = pd n A0 q y := by
  unfold Pol.pd pentry
  rw [h q y hq, h.holder _ hq, h.upPath _ _ _ _ _ (by omega)]

theorem Above.pres {A A0 : Addr} {r : ℕ} (h : Above A A0 r) {n : ℕ} {q y : ℕ} (hq : r ≤ q) (hp : Pres n A0 q y) :
    Pres n A q y := by
  unfold Pres at *
  rw [h q y hq, h.holder _ hq]; exact hp

/-- What the swaps of a row need of the pollard. -/
structure OpOK (n : ℕ) (A : Addr) (r : ℕ) (o : ℕ × ℕ × Bool) : Prop where
  bound : o.1 < n / 2 ^ r ∧ o.2.1 < n / 2 ^ r ∧ o.1 ≠ o.2.1
  src : Pres n A r o.1
  dst : Pres n A r o.2.1
  low : o.2.2 = false → o.2.1 / 2 < n / 2 ^ (r + 1)
  path : o.2.2 = false → ∀ q, r < q → o.2.1 / 2 ^ (q - r) < n / 2 ^ q → (holder (rtOf n) A q (o.2.1 / 2 ^ (q - r))).isSome

theorem runSwaps_ok {n : ℕ} (hn : n ≤ 2 ^ 62) {r : ℕ} {A0 : Addr} : ∀ (ops : List (ℕ × ℕ × Bool))
    (s : Pollard H) (A : Addr) (c : ℕ → ℕ → H) (dirty : List (Option PNode)),
    (∀ o ∈ ops, OpOK n A0 r o) → Above A A0 r → PH s n A c →
    ∃ s', Acc.runSwaps vt (posOps (St.numRows n) r ops) s dirty =
      .ok (s', dirty ++ ((ops.filter fun o => !o.2.2).map fun o => some (pd n A0 (r + 1) (o.2.1 / 2)))) ∧
      PH s' n (permAddr r (seqPerm (ops.map fun o => (o.1, o.2.1))).symm A)
        (permCells r (seqPerm (ops.map fun o => (o.1, o.2.1))).symm c) ∧
      (∀ q x b, q ≤ r → nz s'.ext (holder (rtOf n) (permAddr r (seqPerm (ops.map fun o => (o.1, o.2.1))).symm A) q x) b =
        nz s.ext (holder (rtOf n) A q (up (r - q) (seqPerm (ops.map fun o => (o.1, o.2.1))).symm x)) b) ∧
      (∀ k, (PosMap.find s'.posmap k).isSome = (PosMap.find s.posmap k).isSome) ∧
      (∀ x, x < n → up r (seqPerm (ops.map fun o => (o.1, o.2.1))) x < n) ∧
      (Dist n (c 0) → ∀ x, x < n → PosMap.find s.posmap (c 0 x) = some x →
        ((A 0 x).isSome ∨ ∀ o ∈ ops, x / 2 ^ r ≠ o.1 ∧ x / 2 ^ r ≠ o.2.1) →
        PosMap.find s'.posmap (c 0 x) = some (up r (seqPerm (ops.map fun o => (o.1, o.2.1))) x)) ∧
      (Dist n (c 0) → ∀ x v, x < n → v < 2 ^ 64 → PosMap.find s.posmap (c 0 x) = some v →
        PosMap.find s'.posmap (c 0 x) =
          some (if (A 0 x).isSome ∨ r = 0 then mv x (up r (seqPerm (ops.map fun o => (o.1, o.2.1))) x) v else v)) := by
  intro ops
  induction ops with
  | nil =>
    intro s A c dirty _ _ h
    have e0 : (seqPerm ([].map fun o : ℕ × ℕ × Bool => (o.1, o.2.1))).symm = 1 := rfl
    rw [e0, permAddr_one]
    have e1 : seqPerm ([].map fun o : ℕ × ℕ × Bool => (o.1, o.2.1)) = 1 := rfl
    refine ⟨s, by simp [posOps, Acc.runSwaps], ?_, ?_, fun _ => rfl, ?_, ?_, ?_⟩
    · have : permCells r 1 c = c := by
        funext q x
        unfold permCells
        rw [up_one]; simp
      rw [this]; exact h
    · intro q x b _; rw [up_one]; rfl
    · intro x hx; rw [e1, up_one]; exact hx
    · intro _ x _ hf _; rw [e1, up_one]; exact hf
    · intro _ x v hx hv hf
      rw [e1, up_one, hf]
      congr 1
      split
      · exact (mv_self (by omega) hv).symm
      · rfl
  | cons o ops ih =>
    intro s A c dirty hb hA h
    have ho := hb o (by simp)
    obtain ⟨b1, b2, b3⟩ := ho.bound
    obtain ⟨m, u1, u2, u3, u4⟩ := h.updatePosSubtree_ok hn b1 b2 b3
    have h' : PH { s with posmap := m } n A c := ⟨h.num, h.shape, h.hashed, h.roots, h.pos⟩
    obtain ⟨d, s2, w1, w2, w3, w4, w5, w6⟩ := h'.swap_ok hn b1 b2 b3 (hA.pres le_rfl ho.src) (hA.pres le_rfl ho.dst)
    obtain ⟨s', g1, g2, g3, g4, g5, g6, g7⟩ := ih s2 _ _ (if !o.2.2 then dirty ++ [d] else dirty)
      (fun p hp => hb p (by simp [hp])) (hA.perm _) w2
    have hsym : (seqPerm ((o :: ops).map fun o => (o.1, o.2.1))).symm =
        swap o.1 o.2.1 * (seqPerm (ops.map fun o => (o.1, o.2.1))).symm := by
      simp only [List.map_cons, seqPerm]
      ext x; rfl
    rw [hsym]
    rw [permAddr_mul, Ram.permCells_mul] at g2
    rw [permAddr_mul] at g3
    have hseq : seqPerm ((o :: ops).map fun o => (o.1, o.2.1)) =
        seqPerm (ops.map fun o => (o.1, o.2.1)) * swap o.1 o.2.1 := by
      simp only [List.map_cons, seqPerm]
    have hinv : ∀ y, up r (swap o.1 o.2.1) (up r (swap o.1 o.2.1) y) = y := by
      intro y
      rw [← Perm.mul_apply, ← up_mul, swap_mul_self, up_one]; rfl
    have hc : permCells r (swap o.1 o.2.1) c 0 = c 0 ∘ up r (swap o.1 o.2.1) := by
      funext y; unfold permCells; rw [if_pos (Nat.zero_le _), Nat.sub_zero]; rfl
    refine ⟨s', ?_, g2, ?_, fun k => by rw [g4, w4]; exact u2 k, ?_, ?_, ?_⟩
    · unfold posOps at g1 ⊢
      rw [List.map_cons, Acc.runSwaps]
      simp only
      rw [u1, ok_bind]
      show (swapSubTrees _ _ _ >>= _) = _
      rw [w1, ok_bind]
      simp only
      rw [g1]
      congr 2
      cases hcol : o.2.2 with
      | true => simp [hcol]
      | false =>
        have hd := w6 (fun q hq hx => by
          rw [hA.holder _ (by omega)]; exact ho.path hcol q hq hx) (ho.low hcol)
        rw [hA.pd n (by omega)] at hd
        simp [hcol, hd]
    · intro q x b hq
      rw [g3 q x b hq, w5 q _ b hq, up_mul]
      rfl
    · intro x hx
      rw [hseq, up_mul]
      exact g5 _ (up_swap_bound b1 b2 hx)
    · intro hd x hx hf hp
      rw [hseq, up_mul]
      have hc' : permCells r (swap o.1 o.2.1) c 0 (up r (swap o.1 o.2.1) x) = c 0 x := by
        rw [hc, Function.comp_apply, hinv]
      have := g6 (by
          rw [hc]
          exact hd.perm (fun y hy => up_swap_bound b1 b2 hy) (fun y z he => (up r (swap o.1 o.2.1)).injective he))
        (up r (swap o.1 o.2.1) x) (up_swap_bound b1 b2 hx) (by
          rw [hc', w4]
          exact u3 hd x hx hf (hp.imp id fun h' => h' o (by simp))) (by
          rcases hp with hp | hp
          · left
            unfold permAddr
            by_cases h0 : 0 < r
            · rw [if_pos h0, Nat.sub_zero, hinv]; exact hp
            · rw [if_neg h0]
              have : r = 0 := by omega
              subst this
              rw [up_zero]
              by_cases hx1 : x = o.1
              · rw [hx1, swap_apply_left]; exact (hA.pres le_rfl ho.dst).1
              · by_cases hx2 : x = o.2.1
                · rw [hx2, swap_apply_right]; exact (hA.pres le_rfl ho.src).1
                · rw [swap_apply_of_ne_of_ne hx1 hx2]; exact hp
          · right
            have h1 := hp o (by simp)
            rw [up_fix (swap_apply_of_ne_of_ne h1.1 h1.2)]
            exact fun o' ho' => hp o' (by simp [ho']))
      rw [hc'] at this
      exact this
    · intro hd x v hx hv hf
      rw [hseq, up_mul]
      have hc' : permCells r (swap o.1 o.2.1) c 0 (up r (swap o.1 o.2.1) x) = c 0 x := by
        rw [hc, Function.comp_apply, hinv]
      have hb1 := up_swap_bound b1 b2 hx
      have h1 := u4 hd x v hx hv hf
      have h2 : PosMap.find s2.posmap (c 0 x) =
          some (if (A 0 x).isSome ∨ r = 0 then mv x (up r (swap o.1 o.2.1) x) v else v) := by
        rw [w4, h1]
        congr 1
        by_cases hp : (A 0 x).isSome
        · rw [if_pos hp, if_pos (.inl hp)]
        · rw [if_neg hp]
          by_cases h0 : r = 0
          · subst h0
            rw [if_pos (.inr rfl), up_zero]
            have hx1 : x ≠ o.1 := fun e => hp (by rw [e]; exact (hA.pres le_rfl ho.src).1)
            have hx2 : x ≠ o.2.1 := fun e => hp (by rw [e]; exact (hA.pres le_rfl ho.dst).1)
            rw [swap_apply_of_ne_of_ne hx1 hx2, mv_self (by omega) hv]
          · rw [if_neg (by tauto)]
      have h3 := g7 (by
          rw [hc]
          exact hd.perm (fun y hy => up_swap_bound b1 b2 hy) (fun y z he => (up r (swap o.1 o.2.1)).injective he))
        (up r (swap o.1 o.2.1) x) (if (A 0 x).isSome ∨ r = 0 then mv x (up r (swap o.1 o.2.1) x) v else v) hb1
        (by split; exacts [mv_lt _ _ _, hv]) (by rw [hc']; exact h2)
      rw [hc'] at h3
      rw [h3]
      congr 1
      have hiff : (permAddr r (swap o.1 o.2.1) A 0 (up r (swap o.1 o.2.1) x)).isSome ∨ r = 0 ↔ (A 0 x).isSome ∨ r = 0 := by
        by_cases h0 : r = 0
        · simp [h0]
        · unfold permAddr
          rw [if_pos (by omega), Nat.sub_zero, hinv]
      simp only [hiff]
      by_cases hp : (A 0 x).isSome ∨ r = 0
      · rw [if_pos hp, if_pos hp, if_pos hp, mv_comp (by omega) (by omega)]
        rfl
      · rw [if_neg hp, if_neg hp, if_neg hp]

/-! ## Rehashing -/

/-- What rehashing a row below row `r + 1` does to the objects. -/
structure Pruned (heap heap' : List (INode H)) (A A' : Addr) (r : ℕ) : Prop where
  other : ∀ q y, q ≠ r → A' q y = A q y
  row : ∀ y, A' r y = A r y ∨ (A' r y = none ∧ Dead heap (A r y))
  nieces : ∀ q y p b, q ≠ r + 1 → A' q y = some p → nz heap' (some p) b = nz heap (some p) b

theorem Pruned.refl (heap : List (INode H)) (A : Addr) (r : ℕ) : Pruned heap heap A A r :=
  ⟨fun _ _ _ => rfl, fun _ => .inl rfl, fun _ _ _ _ _ _ => rfl⟩

theorem Pruned.back {heap heap' : List (INode H)} {A A' : Addr} {r : ℕ} (h : Pruned heap heap' A A' r) {q y p : ℕ}
    (hp : A' q y = some p) : A q y = some p := by
  by_cases hq : q = r
  · subst hq
    rcases h.row y with e | ⟨e, -⟩
    · rw [← e]; exact hp
    · rw [e] at hp; simp at hp
  · rw [← h.other q y hq]; exact hp

/-- Rehashing keeps the remember flags. -/
theorem Pruned.flag {heap heap' : List (INode H)} {A A' : Addr} {r : ℕ} (h : Pruned heap heap' A A' r) (rt : ℕ → ℕ → Bool) (x : ℕ) :
    Flag heap' rt A' x ↔ Flag heap rt A x := by
  have key : ∀ y, (nz heap' (A' 0 y) 0).isSome ↔ (nz heap (A 0 y) 0).isSome := by
    intro y
    cases ha : A' 0 y with
    | none =>
      by_cases hr : r = 0
      · subst hr
        rcases h.row y with e | ⟨-, e⟩
        · rw [← e, ha]; simp [nz]
        · rw [e.1]; simp [nz]
      · rw [← h.other 0 y (by omega), ha]; simp [nz]
    | some p => rw [h.back ha, h.nieces 0 y p 0 (by omega) ha]
  unfold Flag holder
  split
  · exact key x
  · split
    · simp [nz]
    · exact key _

theorem Pruned.trans {h1 h2 h3 : List (INode H)} {A1 A2 A3 : Addr} {r : ℕ} (a : Pruned h1 h2 A1 A2 r)
    (b : Pruned h2 h3 A2 A3 r) : Pruned h1 h3 A1 A3 r := by
  refine ⟨fun q y h => (b.other q y h).trans (a.other q y h), ?_, ?_⟩
  · intro y
    rcases a.row y with e | e
    · rcases b.row y with e' | ⟨e1, e2⟩
      · exact .inl (e'.trans e)
      · right
        refine ⟨e1, ?_⟩
        rw [e] at e2
        cases ha : A1 r y with
        | none => exact ⟨rfl, rfl⟩
        | some p =>
          rw [ha] at e2
          have ha2 : A2 r y = some p := by rw [e]; exact ha
          unfold Dead at *
          rw [a.nieces r _ _ _ (by omega) ha2, a.nieces r _ _ _ (by omega) ha2] at e2
          exact e2
    · rcases b.row y with e' | ⟨e1, e2⟩
      · right; exact ⟨by rw [e', e.1], e.2⟩
      · right; exact ⟨e1, e.2⟩
  · intro q y p c hq hp
    rw [b.nieces q y p c hq hp, a.nieces q y p c hq (b.back hp)]

theorem RootsAt.congr {roots : List PNode} {A A' : Addr} {cs : List (ℕ × ℕ)} (h : RootsAt roots A cs)
    (hA : ∀ x ∈ cs, A' x.1 x.2 = A x.1 x.2) : RootsAt roots A' cs := by
  have e : cs.map (fun c => A' c.1 c.2) = cs.map fun c => A c.1 c.2 := List.map_congr_left hA
  exact ⟨by rw [e]; exact h.node, by rw [e]; exact h.sib, h.up⟩

theorem mem_rootCoords {n : ℕ} {x : ℕ × ℕ} (h : x ∈ rootCoords n) : rtOf n x.1 x.2 = true := by
  unfold rootCoords at h
  obtain ⟨t, ht, rfl⟩ := List.mem_map.1 h
  exact rtOf_true.2 ⟨(mem_treeRows.1 ht).2, rfl⟩

/-- Rehashing a dirty node: its children are there, or it has been rehashed before. -/
theorem PH.reHash_ok {s : Pollard H} {n : ℕ} {A A0 : Addr} {c : ℕ → ℕ → H} (h : PH s n A c)
    {r d : ℕ} (hd : d < n / 2 ^ (r + 1)) (hA : Above A A0 (r + 1)) (hp : Pres n A0 (r + 1) d)
    (hk : ((A r (2 * d)).isSome ∧ (A r (2 * d + 1)).isSome) ∨
      c (r + 1) d = HashOps.ph (c r (2 * d)) (c r (2 * d + 1))) :
    ∃ s' A', nodeReHash s (pd n A0 (r + 1) d) = .ok s' ∧ PH s' n A' (rehashCells r [d] c) ∧
      Pruned s.ext s'.ext A A' r ∧ (∀ y, y / 2 ≠ d → A' r y = A r y) ∧ s'.posmap = s.posmap ∧
      ((A r (2 * d)).isSome ∧ (A r (2 * d + 1)).isSome → ∀ y, y / 2 = d → Dead s.ext (A r y) → A' r y = none) := by
  have hp' := hA.pres le_rfl hp
  obtain ⟨an, han⟩ := Option.isSome_iff_exists.1 hp'.1
  obtain ⟨ah, hah⟩ := Option.isSome_iff_exists.1 hp'.2
  have e1 : (pd n A0 (r + 1) d).e.node = some an := by
    show A0 (r + 1) d = _
    rw [← hA _ _ le_rfl]; exact han
  have e2 : (pd n A0 (r + 1) d).e.sib = some ah := by
    show holder (rtOf n) A0 (r + 1) d = _
    rw [← hA.holder _ le_rfl]; exact hah
  have f0 : rtOf n r (2 * d) = false := rtOf_false (by rw [show 2 * d / 2 = d by omega]; exact hd)
  have f1 : rtOf n r (2 * d + 1) = false := rtOf_false (by rw [show (2 * d + 1) / 2 = d by omega]; exact hd)
  obtain ⟨x, hx⟩ := h.shape.hget hah
  obtain ⟨y, hy⟩ := h.shape.get han
  have k0 : A r (2 * d) = x.n0 := by
    have := h.shape.kids r (2 * d) f0
    rw [show 2 * d / 2 = d by omega, hah, nz_some hx, show 2 * d % 2 = 0 by omega] at this
    exact this
  have k1 : A r (2 * d + 1) = x.n1 := by
    have := h.shape.kids r (2 * d + 1) f1
    rw [show (2 * d + 1) / 2 = d by omega, hah, nz_some hx, show (2 * d + 1) % 2 = 1 by omega] at this
    exact this
  by_cases hboth : (A r (2 * d)).isSome ∧ (A r (2 * d + 1)).isSome
  · obtain ⟨l, hl⟩ := Option.isSome_iff_exists.1 hboth.1
    obtain ⟨rr, hr⟩ := Option.isSome_iff_exists.1 hboth.2
    obtain ⟨lx, hlx⟩ := h.shape.get hl
    obtain ⟨rx, hrx⟩ := h.shape.get hr
    have cl : lx.hash = c r (2 * d) := by
      have := h.hashed _ _ _ hl; rw [hlx] at this; simpa using this
    have cr : rx.hash = c r (2 * d + 1) := by
      have := h.hashed _ _ _ hr; rw [hrx] at this; simpa using this
    have hs1 := h.shape.setHash hy (HashOps.ph (c r (2 * d)) (c r (2 * d + 1)))
    set heap1 := s.ext.set an (wHash y (HashOps.ph (c r (2 * d)) (c r (2 * d + 1)))) with hheap1
    have nz1 : ∀ t b, nz heap1 (some t) b = nz s.ext (some t) b := by
      intro t b
      by_cases ht : t = an
      · subst ht
        rw [hheap1, nz_set_self (lt_of_get hy), nz_some hy]; rfl
      · rw [hheap1, nz_set_ne ht]
    obtain ⟨heap2, p1, p2, p3, p4, p5⟩ := prune_ok (heap := heap1) (A := A) hs1 hah f0 f1
    have ekeep : ∀ o, keep heap1 o = keep s.ext o := by
      intro o
      cases o with
      | none => rfl
      | some t => unfold keep; rw [nz1, nz1]
    obtain ⟨jh, hjh⟩ := holder_addr hah
    have hprow : ∀ y, pruneAddr heap1 r d A r y = A r y ∨ (pruneAddr heap1 r d A r y = none ∧ Dead s.ext (A r y)) := by
      intro y
      unfold pruneAddr
      by_cases hyd : y / 2 = d
      · rw [if_pos ⟨rfl, hyd⟩, ekeep]
        by_cases hde : Dead s.ext (A r y)
        · exact .inr ⟨keep_dead hde, hde⟩
        · exact .inl (keep_live hde)
      · rw [if_neg (by tauto)]; exact .inl rfl
    have hpoth : ∀ q y, q ≠ r → pruneAddr heap1 r d A q y = A q y := by
      intro q y hq
      unfold pruneAddr; rw [if_neg (by tauto)]
    have hpback : ∀ q y p, pruneAddr heap1 r d A q y = some p → A q y = some p := by
      intro q y p hh
      by_cases hq : q = r
      · subst hq
        rcases hprow y with e | ⟨e, -⟩
        · rw [← e]; exact hh
        · rw [e] at hh; simp at hh
      · rw [hpoth q y hq] at hh; exact hh
    refine ⟨{ s with ext := heap2 }, pruneAddr heap1 r d A, ?_, ⟨h.num, p3, ?_, ?_, by show 0 < heap2.length; rw [p2, hheap1, List.length_set]; exact h.pos⟩, ⟨hpoth, hprow, ?_⟩, ?_, rfl, ?_⟩
    · unfold nodeReHash
      rw [e2, deref_ok hx, ok_bind, ← k0, ← k1, hl, hr]
      simp only
      have w : store s.ext (some an) { y with hash := HashOps.ph lx.hash rx.hash } = .ok heap1 := by
        rw [cl, cr]; exact store_ok (lt_of_get hy) _
      rw [vecGet_ok hlx, ok_bind, vecGet_ok hrx, ok_bind, e1, deref_ok hy, ok_bind, w, ok_bind, p1, ok_bind]
      rfl
    · intro q z p hz'
      have hzz := hpback _ _ _ hz'
      show hz heap2 p = _
      rw [p4, hheap1, hz_set (lt_of_get hy)]
      unfold rehashCells
      by_cases hpa : p = an
      · subst hpa
        obtain ⟨rfl, rfl⟩ := h.shape.inj _ _ _ _ _ hzz han
        rw [if_pos rfl, if_pos ⟨rfl, by simp⟩]
        rfl
      · rw [if_neg hpa, if_neg]
        · exact h.hashed _ _ _ hzz
        · rintro ⟨rfl, hm⟩
          simp only [List.mem_singleton] at hm
          subst hm
          rw [han] at hzz
          exact hpa (Option.some.inj hzz).symm
    · apply h.roots.congr
      intro z hz
      have hrt := mem_rootCoords hz
      unfold pruneAddr
      rw [if_neg]
      rintro ⟨h1, h2⟩
      rw [rtOf_iff (rtOf_in hrt), h1, h2] at hrt
      exact hrt hd
    · intro q y p b hq hh
      have hh' := hpback _ _ _ hh
      rw [p5 p b, nz1]
      rintro rfl
      exact hq (h.shape.inj _ _ _ _ _ hh' hjh).1
    · intro y hyd
      unfold pruneAddr; rw [if_neg (by tauto)]
    · intro _ y hyd hde
      unfold pruneAddr
      rw [if_pos ⟨rfl, hyd⟩, ekeep]
      exact keep_dead hde
  · have hc := hk.resolve_left hboth
    have hcell : rehashCells r [d] c = c := by
      funext q z
      unfold rehashCells
      split
      · rename_i hq
        obtain ⟨rfl, hm⟩ := hq
        simp only [List.mem_singleton] at hm
        subst hm
        exact hc.symm
      · rfl
    refine ⟨s, A, ?_, by rw [hcell]; exact h, Pruned.refl _ _ _, fun _ _ => rfl, rfl, fun hc => absurd hc hboth⟩
    unfold nodeReHash
    rw [e2, deref_ok hx, ok_bind, ← k0, ← k1]
    cases h0 : A r (2 * d) with
    | none => rfl
    | some l =>
      cases h1 : A r (2 * d + 1) with
      | none => rfl
      | some l' => rw [h0, h1] at hboth; simp at hboth

theorem nodeParent_ok (s : Pollard H) {n : ℕ} {A : Addr} (hn : n ≤ 2 ^ 62) {r d : ℕ} (hd : d < n / 2 ^ r) :
    nodeParent s (pd n A r d) =
      .ok (if d = 2 * (n / 2 ^ (r + 1)) then none else some (pd n A (r + 1) (d / 2))) := by
  unfold nodeParent
  rw [pd_up hn hd]
  have hiff := rtOf_iff hd
  by_cases he : d = 2 * (n / 2 ^ (r + 1))
  · have : rtOf n r d = true := hiff.2 (by omega)
    rw [if_pos he, this]; rfl
  · have : rtOf n r d = false := rtOf_false (by rw [div_succ_row] at *; omega)
    rw [if_neg he, this]; rfl

theorem rehashDirty_ok {n : ℕ} (hn : n ≤ 2 ^ 62) {r : ℕ} {A0 : Addr} : ∀ (Dt : List ℕ) (s : Pollard H) (A : Addr)
    (c : ℕ → ℕ → H) (N : List ℕ), (∀ d ∈ Dt, d < n / 2 ^ (r + 1)) → Above A A0 (r + 1) →
    (∀ d ∈ Dt, Pres n A0 (r + 1) d) →
    (∀ d ∈ Dt, ((A r (2 * d)).isSome ∧ (A r (2 * d + 1)).isSome) ∨
      c (r + 1) d = HashOps.ph (c r (2 * d)) (c r (2 * d + 1))) → PH s n A c →
    ∃ (s' : Pollard H) (A' : Addr) (N' : List ℕ), Acc.rehashDirty vt n (Dt.map fun d => some (pd n A0 (r + 1) d)) s
        (N.map (pd n A0 (r + 2))) = .ok (s', N'.map (pd n A0 (r + 2))) ∧
      PH s' n A' (rehashCells r Dt c) ∧ Pruned s.ext s'.ext A A' r ∧
      (∀ y, y / 2 ∉ Dt → A' r y = A r y) ∧ s'.posmap = s.posmap ∧
      (∀ e, e ∈ N' ↔ e ∈ N ∨ ∃ d ∈ Dt, d ≠ 2 * (n / 2 ^ (r + 2)) ∧ d / 2 = e) ∧
      (∀ d ∈ Dt, (A r (2 * d)).isSome ∧ (A r (2 * d + 1)).isSome → ∀ y, y / 2 = d → Dead s.ext (A r y) → A' r y = none) := by
  intro Dt
  induction Dt with
  | nil =>
    intro s A c N _ _ _ _ h
    refine ⟨s, A, N, rfl, ?_, Pruned.refl _ _ _, fun _ _ => rfl, rfl, by simp, by simp⟩
    have : rehashCells r [] c = c := by funext s x; simp [rehashCells]
    rw [this]; exact h
  | cons d ds ih =>
    intro s A c N hb hA hP hK h
    have hd := hb d (by simp)
    have hR := numRows_le_62 hn
    obtain ⟨r1, i1⟩ := row_le hn hd
    obtain ⟨s1, A1, a1, a2, a3, a4, a5, a6⟩ := h.reHash_ok hd hA (hP d (by simp)) (hK d (by simp))
    have hpar := nodeParent_ok s1 (A := A0) hn hd
    have hstep : ∃ N1 : List ℕ, Acc.rehashDirty vt n ((d :: ds).map fun d => some (pd n A0 (r + 1) d)) s
        (N.map (pd n A0 (r + 2))) = Acc.rehashDirty vt n (ds.map fun d => some (pd n A0 (r + 1) d)) s1
        (N1.map (pd n A0 (r + 2))) ∧ (∀ e, e ∈ N1 ↔ e ∈ N ∨ (d ≠ 2 * (n / 2 ^ (r + 2)) ∧ d / 2 = e)) := by
      rw [List.map_cons, rehashDirty_cons]
      have e1 : vt.nodeReHash s (pd n A0 (r + 1) d) = .ok s1 := a1
      have e2 : vt.nodeParent s1 (pd n A0 (r + 1) d) = _ := hpar
      rw [e1, ok_bind, e2, ok_bind]
      have hb : ∃ b, pushDirty (vt (H := H)) n (pd n A0 (r + 1) d) (N.map (pd n A0 (r + 2))) = .ok b ∧
          (b = false → d / 2 ∈ N) := by
        unfold pushDirty
        rw [List.getLast?_map]
        cases hl : N.getLast? with
        | none => exact ⟨true, rfl, by simp⟩
        | some l =>
          refine ⟨decide (posOf (St.numRows n) (r + 2) l ≠ posOf (St.numRows n) (r + 2) (d / 2)), ?_, ?_⟩
          · show (St.parent n (posOf (St.numRows n) (r + 1) d) >>= _) = _
            rw [parent_posOf (by omega) r1 (lt_of_row i1)]
            rfl
          · intro hf
            have : l = d / 2 := by
              have : posOf (St.numRows n) (r + 2) l = posOf (St.numRows n) (r + 2) (d / 2) := by simpa using hf
              unfold posOf at this; omega
            rw [← this]; exact List.mem_of_getLast? hl
      obtain ⟨b, hb1, hb2⟩ := hb
      rw [hb1, ok_bind]
      by_cases he : d = 2 * (n / 2 ^ (r + 2))
      · refine ⟨N, ?_, by simp [he]⟩
        rw [if_pos he]
        simp
      · cases b with
        | false =>
          refine ⟨N, by simp, ?_⟩
          intro e
          constructor
          · exact .inl
          · rintro (h | ⟨-, rfl⟩)
            · exact h
            · exact hb2 rfl
        | true =>
          refine ⟨N ++ [d / 2], ?_, ?_⟩
          · rw [if_neg he]
            simp
          · intro e; simp [he, eq_comm]
    obtain ⟨N1, e1, e2⟩ := hstep
    have hA1 : Above A1 A0 (r + 1) := fun q y hq => by rw [a3.other q y (by omega)]; exact hA q y hq
    have hK1 : ∀ e ∈ ds, ((A1 r (2 * e)).isSome ∧ (A1 r (2 * e + 1)).isSome) ∨
        rehashCells r [d] c (r + 1) e = HashOps.ph (rehashCells r [d] c r (2 * e)) (rehashCells r [d] c r (2 * e + 1)) := by
      intro e he
      have hlow : ∀ y, rehashCells r [d] c r y = c r y := fun y => by
        unfold rehashCells; rw [if_neg (by omega)]
      rw [hlow, hlow]
      by_cases hed : e = d
      · right
        subst hed
        unfold rehashCells
        rw [if_pos ⟨rfl, by simp⟩]
      · rw [a4 _ (by omega : 2 * e / 2 ≠ d), a4 _ (by omega : (2 * e + 1) / 2 ≠ d)]
        have : rehashCells r [d] c (r + 1) e = c (r + 1) e := by
          unfold rehashCells; rw [if_neg (by simp [hed])]
        rw [this]
        exact hK e (by simp [he])
    obtain ⟨s', A', N', b1, b2, b3, b4, b6, b5, b7⟩ := ih s1 A1 (rehashCells r [d] c) N1 (fun x hx => hb x (by simp [hx])) hA1
      (fun x hx => hP x (by simp [hx])) hK1 a2
    refine ⟨s', A', N', by rw [e1, b1], by rw [Ram.rehashCells_cons] at b2; exact b2, a3.trans b3, ?_, by rw [b6, a5], ?_, ?_⟩
    · intro y hy
      simp only [List.mem_cons, not_or] at hy
      rw [b4 y hy.2, a4 y hy.1]
    · intro e
      rw [b5, e2]
      simp only [List.mem_cons, exists_eq_or_imp]
      tauto
    · intro e he hk y hy hde
      by_cases hed : e = d
      · subst hed
        have h1 := a6 hk y hy hde
        cases h2 : A' r y with
        | none => rfl
        | some p => rw [b3.back h2] at h1; simp at h1
      · have h1 := a4 y (by omega)
        refine b7 e ((List.mem_cons.1 he).resolve_left hed) ?_ y hy ?_
        · rw [a4 _ (by omega : 2 * e / 2 ≠ d), a4 _ (by omega : (2 * e + 1) / 2 ≠ d)]; exact hk
        · rw [h1]
          cases h2 : A r y with
          | none => exact ⟨rfl, rfl⟩
          | some p =>
            rw [h2] at hde h1
            unfold Dead at *
            rw [a3.nieces r _ _ _ (by omega) h1, a3.nieces r _ _ _ (by omega) h1]
            exact hde

/-! ## The rows -/

/-- How `or` combines. -/
@[reducible] def kidOps : HashOps Bool := ⟨or, false⟩

/-- Leaf remembered or, in the higher rows, some child cached. -/
def kidc (heap : List (INode H)) (rt : ℕ → ℕ → Bool) (A : Addr) : ℕ → ℕ → Bool
  | 0, z => (nz heap (holder rt A 0 z) 0).isSome
  | q + 1, z => (A q (2 * z)).isSome || (A q (2 * z + 1)).isSome

/-- A node is dead if nothing is cached below its sibling. -/
theorem Shape.dead_iff {heap : List (INode H)} {rt : ℕ → ℕ → Bool} {A : Addr} (s : Shape heap rt A) {r y : ℕ}
    (h0 : rt r y = false) (h1 : rt r (y ^^^ 1) = false) (hk : ∀ q, r = q + 1 → ∀ j, j / 2 = y ^^^ 1 → rt q j = false) :
    Dead heap (A r y) ↔ kidc heap rt A r (y ^^^ 1) = false := by
  have hh : holder rt A r (y ^^^ 1) = A r y := by
    rw [holder_sib h1 (by rw [sb_sb]; exact h0), sb_sb]
  unfold Dead
  cases r with
  | zero =>
    simp only [kidc]
    rw [hh, (s.leaf y).1]
    simp
  | succ r =>
    have h0 := s.kids r (2 * (y ^^^ 1)) (hk r rfl _ (by omega))
    have h1 := s.kids r (2 * (y ^^^ 1) + 1) (hk r rfl _ (by omega))
    rw [show 2 * (y ^^^ 1) / 2 = y ^^^ 1 by omega, hh, show 2 * (y ^^^ 1) % 2 = 0 by omega] at h0
    rw [show (2 * (y ^^^ 1) + 1) / 2 = y ^^^ 1 by omega, hh, show (2 * (y ^^^ 1) + 1) % 2 = 1 by omega] at h1
    simp only [kidc]
    rw [h0, h1]
    simp

/-- Exchanging subtrees takes what is remembered along. -/
theorem kidc_perm {heap heap' : List (INode H)} {n r : ℕ} {A : Addr} {P : Perm ℕ}
    (h : ∀ q x b, q ≤ r → nz heap' (holder (rtOf n) (permAddr r P A) q x) b = nz heap (holder (rtOf n) A q (up (r - q) P x)) b) :
    kidc heap' (rtOf n) (permAddr r P A) = permCells r P (kidc heap (rtOf n) A) := by
  funext q z
  unfold permCells
  cases q with
  | zero =>
    rw [if_pos (Nat.zero_le _)]
    simp only [kidc]
    rw [h 0 z 0 (Nat.zero_le _)]
  | succ q =>
    simp only [kidc, permAddr]
    by_cases hq : q < r
    · rw [if_pos hq, if_pos hq, if_pos (by omega)]
      have e : r - q = r - (q + 1) + 1 := by omega
      have h0 := up_succ_two (r - (q + 1)) P z 0 (by omega)
      have h1 := up_succ_two (r - (q + 1)) P z 1 (by omega)
      rw [add_zero, add_zero] at h0
      rw [e, h0, h1]
    · rw [if_neg hq, if_neg hq, if_neg (by omega)]

/-- Rehashing a node keeps its children that have something cached below their sibling. -/
theorem kidc_rehash {heap heap' : List (INode H)} {n r : ℕ} {A A' : Addr} {Dt : List ℕ} (s : Shape heap (rtOf n) A)
    (hp : Pruned heap heap' A A' r) (hb : ∀ d ∈ Dt, d < n / 2 ^ (r + 1)) (hk : ∀ y, y / 2 ∉ Dt → A' r y = A r y)
    (hpr : ∀ d ∈ Dt, (A r (2 * d)).isSome ∧ (A r (2 * d + 1)).isSome)
    (hd : ∀ y, y / 2 ∈ Dt → Dead heap (A r y) → A' r y = none) :
    kidc heap' (rtOf n) A' = @rehashCells Bool kidOps r Dt (kidc heap (rtOf n) A) := by
  funext q z
  unfold rehashCells
  cases q with
  | zero =>
    rw [if_neg (by omega)]
    simp only [kidc]
    rw [Bool.eq_iff_iff]
    exact hp.flag (rtOf n) z
  | succ q =>
    by_cases hq : q = r
    · subst hq
      by_cases hz : z ∈ Dt
      · rw [if_pos ⟨rfl, hz⟩]
        have key : ∀ y, y / 2 = z → (A' q y).isSome = kidc heap (rtOf n) A q (y ^^^ 1) := by
          intro y hy
          have hyb : y / 2 < n / 2 ^ (q + 1) := by rw [hy]; exact hb z hz
          have hyl : ∀ q', q = q' + 1 → ∀ j, j / 2 = y ^^^ 1 → rtOf n q' j = false := by
            rintro q' rfl j hj
            refine rtOf_false ?_
            have := Ram.child_bound hyb
            rw [hj, xor_one_cases]; split <;> omega
          have hi := s.dead_iff (rtOf_false hyb) (rtOf_false (by rw [sb_div]; exact hyb)) hyl
          have hsome : (A q y).isSome := by
            rcases (by omega : y = 2 * z ∨ y = 2 * z + 1) with e | e
            · rw [e]; exact (hpr z hz).1
            · rw [e]; exact (hpr z hz).2
          by_cases hde : Dead heap (A q y)
          · rw [hd y (by rw [hy]; exact hz) hde, hi.1 hde]; rfl
          · have h1 : A' q y = A q y := by
              rcases hp.row y with e | ⟨-, e⟩
              · exact e
              · exact absurd e hde
            rw [h1, hsome]
            rw [hi] at hde
            simpa using hde
        show ((A' q (2 * z)).isSome || (A' q (2 * z + 1)).isSome) = _
        rw [key _ (by omega), key _ (by omega), xor_one_even, xor_one_odd]
        exact Bool.or_comm _ _
      · rw [if_neg (by tauto)]
        simp only [kidc]
        rw [hk _ (by rwa [show 2 * z / 2 = z by omega]), hk _ (by rwa [show (2 * z + 1) / 2 = z by omega])]
    · rw [if_neg (by omega)]
      simp only [kidc]
      rw [hp.other q _ hq, hp.other q _ hq]


theorem idxNext_sub : ∀ (l : List ℕ) (cnt : ℕ), (∀ x ∈ (idxNext l cnt).1, ∃ y ∈ l, y / 2 = x) ∧
    ∀ x ∈ (idxNext l cnt).2, x ∈ l
  | [], cnt => by simp [idxNext]
  | [a], cnt => by
    simp only [idxNext]
    split <;> simp
  | a :: b :: rest, cnt => by
    have h1 := idxNext_sub rest cnt
    have h2 := idxNext_sub (b :: rest) (cnt + 1)
    simp only [idxNext]
    split
    · refine ⟨?_, ?_⟩
      · intro x hx
        rcases List.mem_cons.1 hx with rfl | hx
        · exact ⟨a, by simp, rfl⟩
        · obtain ⟨y, hy, e⟩ := h1.1 x hx
          exact ⟨y, by simp [hy], e⟩
      · intro x hx
        have := h1.2 x hx
        simp [this]
    · have g1 : ∀ x ∈ (idxNext (b :: rest) (cnt + 1)).1, ∃ y ∈ a :: b :: rest, y / 2 = x := by
        intro x hx
        obtain ⟨y, hy, e⟩ := h2.1 x hx
        exact ⟨y, List.mem_cons_of_mem _ hy, e⟩
      have g2 : ∀ x ∈ a :: (idxNext (b :: rest) (cnt + 1)).2, x ∈ a :: b :: rest := by
        intro x hx
        rcases List.mem_cons.1 hx with rfl | hx
        · simp
        · exact List.mem_cons_of_mem _ (h2.2 x hx)
      split
      · refine ⟨?_, g2⟩
        intro x hx
        rcases List.mem_cons.1 hx with rfl | hx
        · exact ⟨a, by simp, rfl⟩
        · exact g1 x hx
      · exact ⟨g1, g2⟩

theorem mem_rowNext {m : ℕ} {b : Bool} {D : List ℕ} {x : ℕ} (h : x ∈ rowNext m b D) : ∃ y ∈ D, y / 2 = x := by
  have hs := idxNext_sub (rowTs m D) 0
  have ht : ∀ y ∈ rowTs m D, y ∈ D := fun y hy => (List.mem_filter.1 hy).1
  unfold rowNext at h
  simp only at h
  rcases List.mem_append.1 h with h | h
  · obtain ⟨y, hy, e⟩ := hs.1 x h
    exact ⟨y, ht y hy, e⟩
  · split at h
    · simp at h
    · obtain ⟨y, hy, rfl⟩ := List.mem_map.1 h
      refine ⟨y, ht y (hs.2 y ?_), rfl⟩
      unfold oddLast at hy
      split at hy
      · simp at hy
      · rename_i hne
        simp only [List.mem_singleton] at hy
        subst hy
        generalize (idxNext (rowTs m D) 0).2 = ws at *
        cases ws with
        | nil => simp at hne
        | cons a l =>
          rw [List.getLastD_cons, List.getLastD_eq_getLast?]
          cases hl : l.getLast? with
          | none => simp
          | some z => exact List.mem_cons_of_mem _ (List.mem_of_getLast? hl)

/-- Deleted nodes of a row are above deleted leaves. -/
theorem mem_Dn {n : ℕ} {D : List ℕ} : ∀ r x, x ∈ Dn n D r → ∃ t ∈ D, t / 2 ^ r = x := by
  intro r
  induction r with
  | zero => intro x hx; exact ⟨x, hx, by simp⟩
  | succ r ih =>
    intro x hx
    have hx' : x ∈ nextD n r (Dn n D r) := hx
    unfold nextD at hx'
    rw [mem_sortU64] at hx'
    obtain ⟨y, hy, rfl⟩ := mem_rowNext hx'
    obtain ⟨t, ht, rfl⟩ := ih y hy
    exact ⟨t, ht, (div_div_two t r).symm⟩

/-- Something hangs below the node. -/
def HasKid (heap : List (INode H)) (n : ℕ) (A : Addr) (r z : ℕ) : Prop :=
  ∃ b, b < 2 ∧ (nz heap (holder (rtOf n) A r z) b).isSome

/-- What the iteration of row `r`, which moves subtrees by `P`, does to the leaves. -/
structure RowTrk (s s' : Pollard H) (n : ℕ) (D : List ℕ) (A A' : Addr) (f : ℕ → H) (r : ℕ) (P : Perm ℕ) : Prop where
  flag : ∀ x, Flag s'.ext (rtOf n) A' (up r P x) ↔ Flag s.ext (rtOf n) A x
  dom : ∀ k, (PosMap.find s'.posmap k).isSome = (PosMap.find s.posmap k).isSome
  bound : ∀ x, x < n → up r P x < n
  know : Dist n f → ∀ x, x < n → (A 0 x).isSome → PosMap.find s.posmap (f x) = some x → PosMap.find s'.posmap (f x) = some (up r P x)
  high : 0 < r → ∀ x, A' 0 (up r P x) = A 0 x
  low : r = 0 → ∀ y, rtOf n 0 y = true ∨ (y < n ∧ (Flag s.ext (rtOf n) A (P.symm (y ^^^ 1)) ∨ P.symm (y ^^^ 1) ∈ D)) → (A' 0 y).isSome
  del : r = 0 → ∀ y, P.symm y ∈ D → (A' 0 y).isSome
  entry : Dist n f → ∀ x v, x < n → v < 2 ^ 64 → PosMap.find s.posmap (f x) = some v →
    PosMap.find s'.posmap (f x) = some (if (A 0 x).isSome ∨ r = 0 then mv x (up r P x) v else v)
  seen : r = 0 → ∀ y, y < n → rtOf n 0 y = false → ((A' 0 y).isSome ↔ Flag s.ext (rtOf n) A (P.symm (y ^^^ 1)) ∨
    ((A 0 y).isSome ∧ y / 2 ∉ (Sn n D 0).map fun p => p.2 / 2))

/-- The pollard before the iteration of row `r`. -/
structure RowSt (s : Pollard H) (n n' : ℕ) (D : List ℕ) (A0 A : Addr) (c : ℕ → ℕ → H) (r : ℕ) (Dt : List ℕ) : Prop where
  ph : PH s n A c
  above : Above A A0 r
  kid : 0 < r → ∀ z ∈ Dn n D r, HasKid s.ext n A r z
  new : ∀ q, q < r → n'.testBit q = true → (A q ((up (r - q) (sg n n' D (St.numRows n) r)).symm (rootIdx n' q))).isSome
  dirt : DirtInv n n' D (St.numRows n) r c Dt
  anc : ∀ d ∈ Dt, ∃ t ∈ D, t / 2 ^ (r + 1) = d
  zero : r = 0 → Dt = []

theorem pres_row' {n : ℕ} {A : Addr} {r y t : ℕ} (hP : t / 2 ^ r < n / 2 ^ r → Pres n A r (t / 2 ^ r))
    (h : y / 2 = t / 2 ^ (r + 1)) (hin : y / 2 < n / 2 ^ (r + 1)) : Pres n A r y := by
  have h1 : t / 2 ^ r < n / 2 ^ r := by
    rw [h] at hin
    rw [← div_div_two, ← div_div_two] at hin
    omega
  have h2 := hP h1
  rw [← div_div_two] at h
  rcases (by omega : y = t / 2 ^ r ∨ (y ≠ t / 2 ^ r)) with e | e
  · rw [e]; exact h2
  · have : y = t / 2 ^ r ^^^ 1 := by rw [xor_one_cases]; split <;> omega
    rw [this]
    exact h2.sib (by rw [← h]; exact hin)

theorem pres_row {n : ℕ} {D : List ℕ} {A : Addr} {h0 : ℕ} (hP : PresFrom n A D h0) {r y t : ℕ} (hr : h0 ≤ r) (ht : t ∈ D)
    (h : y / 2 = t / 2 ^ (r + 1)) (hin : y / 2 < n / 2 ^ (r + 1)) : Pres n A r y := pres_row' (hP t ht r hr) h hin

theorem pres_root {heap : List (INode H)} {n : ℕ} {A : Addr} (hs : Shape heap (rtOf n) A) {r y : ℕ}
    (h : rtOf n r y = true) : Pres n A r y := ⟨hs.root r y h, by rw [holder_root h]; exact hs.root r y h⟩

theorem sg_dead {n n' : ℕ} {D : List ℕ} {R r : ℕ} (hi : ∀ r, RowInv n n' D r) (hnR : n ≤ 2 ^ R) (hr : r < R) {y : ℕ}
    (hz : Zone (n / 2 ^ (r + 1)) (n.testBit r) (Dn n D (r + 1)) y)
    (hy : n'.testBit r = true → y ≠ colDst n' r (sg n n' D R (r + 1))) :
    (rowPerm n n' D r (sg n n' D R (r + 1))).symm y ∈ Dn n D r := by
  have hS := sg_sinks hi hnR (r := r + 1) hr
  rw [(sg_sinks hi hnR (r := r) (by omega)).mem, sg_step _ _ _ hr, Perm.mul_apply, Equiv.apply_symm_apply]
  rw [zone_iff hS (hi (r + 1)).le] at hz
  refine ⟨?_, hz.2⟩
  rw [div_bit n' r]
  cases hb : n'.testBit r with
  | false => simpa using hz.1
  | true =>
    have h1 : up 1 (sg n n' D R (r + 1)) y ≠ up 1 (sg n n' D R (r + 1)) (colDst n' r (sg n n' D R (r + 1))) :=
      fun e => hy hb ((up 1 _).injective e)
    rw [colDst_spec] at h1
    simp only [Bool.toNat_true]
    omega

theorem up_symm_up (r : ℕ) (P : Perm ℕ) (x : ℕ) : up r P.symm (up r P x) = x := by
  rw [← Perm.mul_apply, ← up_mul, show P.symm * P = 1 from by ext; simp, up_one]; rfl

/-- What the dirt says depends only on the nodes it speaks about. -/
theorem dirt_congr {α : Type} [HashOps α] {n n' : ℕ} {D : List ℕ} {R r : ℕ} {c c' : ℕ → ℕ → α} {N : List ℕ} (h : DirtInv n n' D R r c N)
    (h0 : ∀ x, c' 0 x = c 0 x)
    (hl : ∀ s, s ≤ r → ∀ x, up (r - s) (sg n n' D R r) x < n' / 2 ^ s → c' s x = c s x)
    (hh : ∀ s, r < s → ∀ x, x < n / 2 ^ s → ¬ (s = r + 1 ∧ x ∈ N) → c' s x = c s x) : DirtInv n n' D R r c' N := by
  have e0 : c' 0 = c 0 := funext h0
  refine ⟨?_, ?_, h.bound⟩
  · intro s hs x hx
    rw [hl s hs x hx, e0]
    exact h.low s hs x hx
  · intro s hs x hx
    by_cases hN : s = r + 1 ∧ x ∈ N
    · obtain ⟨rfl, hN⟩ := hN
      exact .inr (.inl ⟨x, hN, by simp⟩)
    · rw [hh s hs x hx hN, e0]
      exact h.high s hs x hx

/-- Whatever the children, true. -/
@[reducible] def trueOps : HashOps Bool := ⟨fun _ _ => true, true⟩

theorem mt_true (r i : ℕ) : @mt Bool trueOps (fun _ => true) r i = true := by
  cases r <;> rfl

/-- Each of the two children of a node is cached exactly if the other one has a child that is; the bottom row is left out. -/
def tcell (A : Addr) : ℕ → ℕ → Bool
  | q + 2, z => ((A (q + 1) (2 * z)).isSome == ((A q (2 * (2 * z + 1))).isSome || (A q (2 * (2 * z + 1) + 1)).isSome)) &&
      ((A (q + 1) (2 * z + 1)).isSome == ((A q (2 * (2 * z))).isSome || (A q (2 * (2 * z) + 1)).isSome))
  | _, _ => true

theorem tcell_zero (A : Addr) : tcell A 0 = fun _ => true := rfl
theorem tcell_one (A : Addr) : tcell A 1 = fun _ => true := rfl

theorem tcell_congr {A A' : Addr} {q z x : ℕ} (h1 : ∀ b, b < 2 → A' (q + 1) (2 * z + b) = A (q + 1) (2 * x + b))
    (h2 : ∀ b, b < 4 → A' q (4 * z + b) = A q (4 * x + b)) : tcell A' (q + 2) z = tcell A (q + 2) x := by
  have a0 := h1 0 (by omega)
  have a1 := h1 1 (by omega)
  have b0 := h2 0 (by omega)
  have b1 := h2 1 (by omega)
  have b2 := h2 2 (by omega)
  have b3 := h2 3 (by omega)
  rw [add_zero, add_zero] at a0 b0
  simp only [tcell]
  rw [show 2 * (2 * z + 1) = 4 * z + 2 by omega, show 2 * (2 * x + 1) = 4 * x + 2 by omega, show 2 * (2 * z) = 4 * z by omega,
    show 2 * (2 * x) = 4 * x by omega, a0, a1, b0, b1, b2, show 4 * z + 2 + 1 = 4 * z + 3 by omega,
    show 4 * x + 2 + 1 = 4 * x + 3 by omega, b3]

theorem up_four (k : ℕ) (P : Perm ℕ) (x b : ℕ) (hb : b < 4) : up (k + 2) P (4 * x + b) = 4 * up k P x + b := by
  have h1 := up_succ_two (k + 1) P (2 * x + b / 2) (b % 2) (by omega)
  have h2 := up_succ_two k P x (b / 2) (by omega)
  rw [h2] at h1
  rw [show 4 * x + b = 2 * (2 * x + b / 2) + b % 2 by omega, h1]
  omega

/-- A row of swaps and rehashings, as far as superfluous objects are concerned. -/
theorem tight_step {n n' : ℕ} {D : List ℕ} (hi : ∀ r, RowInv n n' D r) {R r : ℕ} (hnR : n ≤ 2 ^ R) (hr : r < R) {A A' : Addr}
    {heap heap' : List (INode H)} {Dt Dt' N : List ℕ}
    (hJ : @DirtInv Bool trueOps n n' D R r (tcell A) Dt)
    (hDt : ∀ d, d ∈ Dt' ↔ d ∈ Dt ∨ ∃ o ∈ opsAt n n' D r (sg n n' D R (r + 1)), o.2.2 = false ∧ o.2.1 / 2 = d)
    (hN : ∀ d, d ∈ N ↔ ∃ e ∈ Dt', e ≠ 2 * (n / 2 ^ (r + 2)) ∧ e / 2 = d)
    (s : Shape heap (rtOf n) (permAddr r (rowPerm n n' D r (sg n n' D R (r + 1))).symm A))
    (hp : Pruned heap heap' (permAddr r (rowPerm n n' D r (sg n n' D R (r + 1))).symm A) A' r)
    (hb : ∀ d ∈ Dt', d < n / 2 ^ (r + 1))
    (hk : ∀ y, y / 2 ∉ Dt' → A' r y = A r y)
    (hpr : ∀ d ∈ Dt', (A r (2 * d)).isSome ∧ (A r (2 * d + 1)).isSome)
    (hd : ∀ y, y / 2 ∈ Dt' → Dead heap (A r y) → A' r y = none) :
    @DirtInv Bool trueOps n n' D R (r + 1) (tcell A') N := by
  have hS := sg_sinks hi hnR (r := r + 1) hr
  have hok := opsAt_ok (hi r) hS
  have hperm := seqPerm_opsAt n n' D r (sg n n' D R (r + 1))
  have hgen := @dirt_step Bool trueOps _ _ _ _ _ _ _ _ _ hi hnR hr hJ hDt hN
  generalize hP : rowPerm n n' D r (sg n n' D R (r + 1)) = P at *
  have hlow : ∀ q y, q < r → A' q y = A q (up (r - q) P.symm y) := by
    intro q y hq
    rw [hp.other q y (by omega)]
    unfold permAddr
    rw [if_pos hq]
  have hrow : ∀ y, permAddr r P.symm A r y = A r y := fun y => by unfold permAddr; rw [if_neg (by omega)]
  have hhigh : ∀ q y, r < q → A' q y = A q y := by
    intro q y hq
    rw [hp.other q y (by omega)]
    unfold permAddr
    rw [if_neg (by omega)]
  refine @dirt_congr Bool trueOps _ _ _ _ _ _ _ _ hgen ?_ ?_ ?_
  · intro x
    simp [rehashCells, permCells, tcell]
  · intro t ht x hx
    match t, ht, hx with
    | 0, _, _ => simp [rehashCells, permCells, tcell]
    | 1, _, _ =>
      unfold rehashCells permCells
      split
      · rfl
      · split <;> rfl
    | q + 2, ht, hx =>
      rcases Nat.lt_or_ge (q + 1) r with h | h
      · have e : @rehashCells Bool trueOps r Dt' (permCells r P.symm (tcell A)) (q + 2) x = tcell A (q + 2) (up (r - (q + 2)) P.symm x) := by
          unfold rehashCells permCells
          rw [if_neg (by omega), if_pos (by omega)]
        rw [e]
        refine tcell_congr ?_ ?_
        · intro b hb
          rw [hlow _ _ (by omega), show r - (q + 1) = r - (q + 2) + 1 by omega, up_succ_two _ _ _ _ hb]
        · intro b hb
          rw [hlow _ _ (by omega), show r - q = r - (q + 2) + 2 by omega, up_four _ _ _ _ hb]
      · obtain rfl : r = q + 1 := by omega
        rw [show q + 1 + 1 - (q + 2) = 0 by omega, up_zero] at hx
        replace hx : (sg n n' D R (q + 1 + 1)) x < n' / 2 ^ (q + 1 + 1) := hx
        by_cases hxd : x ∈ Dt'
        · have e : @rehashCells Bool trueOps (q + 1) Dt' (permCells (q + 1) P.symm (tcell A)) (q + 2) x = true := by
            unfold rehashCells
            rw [if_pos ⟨rfl, hxd⟩]
            rfl
          rw [e]
          have key : ∀ y, y / 2 = x → (A' (q + 1) y).isSome = ((A' q (2 * (y ^^^ 1))).isSome || (A' q (2 * (y ^^^ 1) + 1)).isSome) := by
            intro y hy
            have hyb : y / 2 < n / 2 ^ (q + 1 + 1) := by rw [hy]; exact hb x hxd
            have hyl : ∀ q', q + 1 = q' + 1 → ∀ j, j / 2 = y ^^^ 1 → rtOf n q' j = false := by
              rintro q' hq' j hj
              obtain rfl : q = q' := by omega
              refine rtOf_false ?_
              have := Ram.child_bound hyb
              rw [hj, xor_one_cases]; split <;> omega
            have hi := s.dead_iff (rtOf_false hyb) (rtOf_false (by rw [sb_div]; exact hyb)) hyl
            rw [hrow] at hi
            simp only [kidc] at hi
            rw [← hp.other q _ (by omega), ← hp.other q _ (by omega)] at hi
            have hsome : (A (q + 1) y).isSome := by
              rcases (by omega : y = 2 * x ∨ y = 2 * x + 1) with e | e
              · rw [e]; exact (hpr x hxd).1
              · rw [e]; exact (hpr x hxd).2
            by_cases hde : Dead heap (A (q + 1) y)
            · rw [hd y (by rw [hy]; exact hxd) hde, hi.1 hde]; rfl
            · have h1 : A' (q + 1) y = A (q + 1) y := by
                rcases hp.row y with e | ⟨-, e⟩
                · rw [e, hrow]
                · rw [hrow] at e; exact absurd e hde
              rw [h1, hsome]
              rw [hi, Bool.not_eq_false] at hde
              rw [hde]
          have k0 := key (2 * x) (by omega)
          have k1 := key (2 * x + 1) (by omega)
          rw [xor_one_even] at k0
          rw [xor_one_odd] at k1
          simp only [tcell]
          rw [k0, k1]
          simp
        · have e : @rehashCells Bool trueOps (q + 1) Dt' (permCells (q + 1) P.symm (tcell A)) (q + 2) x = tcell A (q + 2) x := by
            unfold rehashCells permCells
            rw [if_neg (by tauto), if_neg (by omega)]
          rw [e]
          have hxD : x ∉ Dn n D (q + 1 + 1) := by
            intro h; have := ((hS.mem x).1 h).1
            omega
          have hxn : x < n / 2 ^ (q + 1 + 1) := by
            by_contra hc
            rw [hS.fix x (by omega)] at hx
            have := (hi (q + 1 + 1)).le
            omega
          have hfix : ∀ y, y / 2 = x → P.symm y = y := by
            intro y hy
            rw [Equiv.symm_apply_eq, ← hperm, seqPerm_fix]
            intro p hp
            obtain ⟨o, ho, rfl⟩ := List.mem_map.1 hp
            have hroot : ∀ y, y = 2 * (n / 2 ^ (q + 1 + 1)) → y / 2 ≠ x := by
              intro y hy; omega
            constructor
            · rintro rfl
              rcases hok.src o ho with h | h
              · exact hxD (hy ▸ h)
              · exact hroot _ h hy
            · rintro rfl
              cases hcol : o.2.2 with
              | false => exact hxd ((hDt x).2 (.inr ⟨o, ho, hcol, hy⟩))
              | true =>
                rcases hok.col o ho hcol with h | h
                · exact hxD (hy ▸ h)
                · exact hroot _ h hy
          refine tcell_congr ?_ ?_
          · intro b hb
            exact hk _ (by rw [show (2 * x + b) / 2 = x by omega]; exact hxd)
          · intro b hb
            rw [hlow _ _ (by omega), show q + 1 - q = 0 + 1 by omega, show 4 * x + b = 2 * (2 * x + b / 2) + b % 2 by omega,
              up_succ_two _ _ _ _ (by omega), up_zero, hfix _ (by omega)]
  · intro t ht x hx hc
    match t, ht, hx, hc with
    | 1, ht, _, _ => omega
    | q + 2, ht, hx, hc =>
      have e : @rehashCells Bool trueOps r Dt' (permCells r P.symm (tcell A)) (q + 2) x = tcell A (q + 2) x := by
        unfold rehashCells permCells
        rw [if_neg (by omega), if_neg (by omega)]
      rw [e]
      refine tcell_congr (fun b _ => hhigh _ _ (by omega)) ?_
      intro b hb
      rcases Nat.lt_or_ge r q with h | h
      · exact hhigh _ _ h
      · obtain rfl : q = r := by omega
        apply hk
        intro hm
        refine hc ⟨rfl, (hN x).2 ⟨_, hm, ?_, by omega⟩⟩
        intro he
        have : x = n / 2 ^ (q + 2) := by omega
        omega

theorem row_step' {n n' : ℕ} {D : List ℕ} (hn : n ≤ 2 ^ 62) (hi : ∀ r, RowInv n n' D r) {A0 : Addr}
    {heap0 : List (INode H)} (hs0 : Shape heap0 (rtOf n) A0) {r : ℕ} (hr : r < St.numRows n)
    (hP : ∀ t ∈ D, ∀ q, r ≤ q → q ≤ r + 1 → t / 2 ^ q < n / 2 ^ q → Pres n A0 q (t / 2 ^ q))
    (hH : ∀ t ∈ D, ∀ q, r < q → t / 2 ^ q < n / 2 ^ q → (holder (rtOf n) A0 q (t / 2 ^ q)).isSome)
    {s : Pollard H} {A : Addr} {c : ℕ → ℕ → H} {Dt : List ℕ} (h : RowSt s n n' D A0 A c r Dt) :
    ∃ (s1 s2 : Pollard H) (dirty : List (Option PNode)) (A' : Addr) (N : List ℕ),
      Acc.runSwaps vt (posOps (St.numRows n) r (opsAt n n' D r (sg n n' D (St.numRows n) (r + 1)))) s
        ((Dt.map (pd n A0 (r + 1))).map some) = .ok (s1, dirty) ∧
      Acc.rehashDirty vt n dirty s1 [] = .ok (s2, N.map (pd n A0 (r + 2))) ∧
      RowSt s2 n n' D A0 A' (rehashCells r
        (Dt ++ ((opsAt n n' D r (sg n n' D (St.numRows n) (r + 1))).filter fun o => !o.2.2).map fun o => o.2.1 / 2)
        (permCells r (rowPerm n n' D r (sg n n' D (St.numRows n) (r + 1))).symm c)) (r + 1) N ∧
      RowTrk s s2 n D A A' (c 0) r (rowPerm n n' D r (sg n n' D (St.numRows n) (r + 1))) ∧
      (@DirtInv Bool kidOps n n' D (St.numRows n) r (kidc s.ext (rtOf n) A) Dt →
        @DirtInv Bool kidOps n n' D (St.numRows n) (r + 1) (kidc s2.ext (rtOf n) A') N) ∧
      (@DirtInv Bool trueOps n n' D (St.numRows n) r (tcell A) Dt →
        @DirtInv Bool trueOps n n' D (St.numRows n) (r + 1) (tcell A') N) ∧
      ∀ e, e ∈ N ↔ ∃ d ∈ Dt ++ ((opsAt n n' D r (sg n n' D (St.numRows n) (r + 1))).filter fun o => !o.2.2).map fun o => o.2.1 / 2,
        d ≠ 2 * (n / 2 ^ (r + 2)) ∧ d / 2 = e := by
  have hnR : n ≤ 2 ^ St.numRows n := le_two_pow_numRows (by omega)
  have hS := sg_sinks hi hnR (r := r + 1) hr
  have hops := opsAt_ok (hi r) hS
  have hperm := seqPerm_opsAt n n' D r (sg n n' D (St.numRows n) (r + 1))
  set ρ := sg n n' D (St.numRows n) (r + 1) with hρ
  set ops := opsAt n n' D r ρ with hops_def
  set P := rowPerm n n' D r ρ with hPdef
  -- presence of the slots
  have hslot : ∀ y, y < n / 2 ^ r → y / 2 ∈ Dn n D (r + 1) ∨ y = 2 * (n / 2 ^ (r + 1)) → Pres n A0 r y := by
    intro y hy hz
    rcases hz with hz | hz
    · obtain ⟨t, ht, e⟩ := mem_Dn _ _ hz
      exact pres_row' (hP t ht r le_rfl (by omega)) e.symm ((hi (r + 1)).bound _ hz)
    · apply pres_root hs0
      rw [rtOf_iff hy]; omega
  have hdead : ∀ y ∈ Dn n D r, Pres n A0 r y := by
    intro y hy
    obtain ⟨t, ht, rfl⟩ := mem_Dn _ _ hy
    exact hP t ht r le_rfl (by omega) ((hi r).bound _ hy)
  have hopok : ∀ o ∈ ops, OpOK n A0 r o := by
    intro o ho
    have hb := hops.bound o ho
    refine ⟨hb, hslot _ hb.1 (hops.src o ho), ?_, fun hf => (hops.dst o ho hf).1, ?_⟩
    · cases hcol : o.2.2 with
      | false => exact hdead _ (hops.dst o ho hcol).2.1
      | true => exact hslot _ hb.2.1 (hops.col o ho hcol)
    · intro hf q hq hx
      obtain ⟨t, ht, e⟩ := mem_Dn _ _ (hops.dst o ho hf).2.1
      have e2 : o.2.1 / 2 ^ (q - r) = t / 2 ^ q := by
        rw [← e, Nat.div_div_eq_div_mul, ← pow_add, show r + (q - r) = q by omega]
      rw [e2] at hx ⊢
      exact hH t ht q hq hx
  obtain ⟨s1, a1, a2, a3, a4, a5, a6, a7⟩ := runSwaps_ok hn ops s A c ((Dt.map (pd n A0 (r + 1))).map some) hopok h.above h.ph
  rw [hperm] at a2 a3 a5 a6 a7
  set A1 := permAddr r P.symm A with hA1
  have hab1 : Above A1 A0 r := h.above.perm _
  set Dt' := Dt ++ (ops.filter fun o => !o.2.2).map fun o => o.2.1 / 2 with hDt'
  have hDtm : ∀ d, d ∈ Dt' ↔ d ∈ Dt ∨ ∃ o ∈ ops, o.2.2 = false ∧ o.2.1 / 2 = d := by
    intro d
    rw [hDt', List.mem_append, List.mem_map]
    simp [and_assoc]
  have hDtb : ∀ d ∈ Dt', d < n / 2 ^ (r + 1) := by
    intro d hd
    rcases (hDtm d).1 hd with h' | ⟨o, ho, hf, rfl⟩
    · exact h.dirt.bound d h'
    · exact (hops.dst o ho hf).1
  have hDta : ∀ d ∈ Dt', ∃ t ∈ D, t / 2 ^ (r + 1) = d := by
    intro d hd
    rcases (hDtm d).1 hd with h' | ⟨o, ho, hf, rfl⟩
    · exact h.anc d h'
    · obtain ⟨t, ht, e⟩ := mem_Dn _ _ (hops.dst o ho hf).2.1
      exact ⟨t, ht, by rw [← e, div_div_two]⟩
  have hDtP : ∀ d ∈ Dt', Pres n A0 (r + 1) d := by
    intro d hd
    obtain ⟨t, ht, rfl⟩ := hDta d hd
    exact hP t ht (r + 1) (by omega) le_rfl (hDtb _ hd)
  have hboth : ∀ d ∈ Dt', (A1 r (2 * d)).isSome ∧ (A1 r (2 * d + 1)).isSome := by
    intro d hd
    obtain ⟨t, ht, e⟩ := hDta d hd
    rw [hab1 r _ le_rfl, hab1 r _ le_rfl]
    exact ⟨(pres_row' (hP t ht r le_rfl (by omega)) (by omega) (by rw [show 2 * d / 2 = d by omega]; exact hDtb d hd)).1,
      (pres_row' (hP t ht r le_rfl (by omega)) (by omega) (by rw [show (2 * d + 1) / 2 = d by omega]; exact hDtb d hd)).1⟩
  obtain ⟨s2, A', N, b1, b2, b3, b4, b6, b5, b7⟩ := rehashDirty_ok hn (A0 := A0) Dt' s1 A1 _ [] hDtb (hab1.mono (by omega)) hDtP
    (fun d hd => .inl (hboth d hd)) a2
  -- a slot whose sibling received a deleted subtree keeps its object
  have hkeep : ∀ w, w / 2 ∈ Dn n D (r + 1) → Pres n A0 r w → P.symm (w ^^^ 1) ∈ Dn n D r → (A' r w).isSome := by
    intro w hwD hp hd
    have hw := (hi (r + 1)).bound _ hwD
    rcases Nat.eq_zero_or_pos r with h0 | h0
    · -- in the bottom row the parents rehashed are not deleted
      rw [b4 w, hab1 r _ le_rfl]
      · exact hp.1
      · intro hm
        rcases (hDtm _).1 hm with hm | ⟨o, ho, hf, he⟩
        · rw [h.zero h0] at hm; simp at hm
        · have := (hops.dst o ho hf).2.2
          rw [he] at this
          exact this hwD
    rcases b3.row w with e | ⟨-, e⟩
    · rw [e, hab1 r _ le_rfl]; exact hp.1
    · exfalso
      obtain ⟨b, hb, hk⟩ := h.kid h0 _ hd
      have := a3 r (w ^^^ 1) b le_rfl
      rw [Nat.sub_self, up_zero] at this
      rw [← this, holder_sib (rtOf_false (by rw [sb_div]; exact hw)) (rtOf_false (by rw [sb_sb]; exact hw)), sb_sb] at hk
      have h2 := e
      unfold Dead at h2
      rcases (by omega : b = 0 ∨ b = 1) with rfl | rfl
      · rw [h2.1] at hk; simp at hk
      · rw [h2.2] at hk; simp at hk
  have hsp : ∀ q x, q ≠ r → A' q x = A1 q x := b3.other
  refine ⟨s1, s2, _, A', N, a1, ?_, ⟨b2, ?_, ?_, ?_, ?_, ?_, by omega⟩, ⟨?_, ?_, a5, ?_, ?_, ?_, ?_, ?_, ?_⟩, ?_, ?_⟩
  · have e : (Dt.map (pd n A0 (r + 1))).map some ++
        (ops.filter fun o => !o.2.2).map (fun o => some (pd n A0 (r + 1) (o.2.1 / 2))) =
        Dt'.map fun d => some (pd n A0 (r + 1) d) := by
      rw [hDt', List.map_append, List.map_map, List.map_map]; rfl
    rw [e]; exact b1
  · intro q y hq
    rw [hsp q y (by omega)]; exact hab1 q y (by omega)
  · -- something hangs below every deleted node of the next row
    intro _ z hz
    have hzb := (hi (r + 1)).bound z hz
    have hex : ∃ b, b < 2 ∧ (n'.testBit r = true → (2 * z + b) ^^^ 1 ≠ colDst n' r ρ) := by
      by_cases h0 : (2 * z + 0) ^^^ 1 = colDst n' r ρ
      · refine ⟨1, by omega, fun _ => ?_⟩
        rw [← h0, add_zero, xor_one_odd, xor_one_even]; omega
      · exact ⟨0, by omega, fun _ => h0⟩
    obtain ⟨b, hb, hne⟩ := hex
    have hd2 : (2 * z + b) / 2 = z := by omega
    have hzone : Zone (n / 2 ^ (r + 1)) (n.testBit r) (Dn n D (r + 1)) ((2 * z + b) ^^^ 1) := by
      left; rw [sb_div, hd2]; exact hz
    have hlt : 2 * z + b < n / 2 ^ r := by have := Ram.child_bound hzb; omega
    have hsome := hkeep (2 * z + b) (by rw [hd2]; exact hz) (hslot _ hlt (.inl (by rw [hd2]; exact hz)))
      (sg_dead hi hnR hr hzone hne)
    refine ⟨b, hb, ?_⟩
    have := b2.shape.kids r (2 * z + b) (rtOf_false (by rw [hd2]; exact hzb))
    rw [hd2, show (2 * z + b) % 2 = b by omega] at this
    rw [← this]; exact hsome
  · intro q hq hbit
    rcases Nat.lt_or_ge q r with hlt | hge
    · have h1 := h.new q hlt hbit
      rw [hsp q _ (by omega), hA1]
      unfold permAddr
      rw [if_pos hlt]
      have e : (up (r - q) P.symm) ((up (r + 1 - q) ρ).symm (rootIdx n' q)) =
          (up (r - q) (sg n n' D (St.numRows n) r)).symm (rootIdx n' q) := by
        rw [sg_step _ _ _ hr, up_mul, up_up, show r - q + 1 = r + 1 - q by omega]
        rfl
      rw [e]; exact h1
    · have : q = r := by omega
      subst this
      rw [show q + 1 - q = 1 by omega]
      show (A' q (colDst n' q ρ)).isSome
      -- the collapse has a source
      have hX : ∃ x, Xn n D q = some x := by
        have := (hi q).next_counts.2
        rw [div_bit n' q, hbit] at this
        cases hx : Xn n D q with
        | none => rw [hx] at this; simp at this
        | some x => exact ⟨x, rfl⟩
      obtain ⟨x, hX⟩ := hX
      have hz := colDst_zone (hi q) hS hX
      have hlt := colDst_lt (hi q) hS hX
      have hsl := hslot _ hlt (hz.imp id (·.2))
      rcases hz with hz | ⟨hz1, hz2⟩
      · apply hkeep _ hz hsl
        apply sg_dead hi hnR hr
        · left; rw [sb_div]; exact hz
        · intro _; exact sb_ne _
      · rw [b4, hab1 q _ le_rfl]
        · exact hsl.1
        · intro hm
          have := hDtb _ hm
          omega
  · exact dirt_step hi hnR hr h.dirt hDtm (by intro d; rw [b5]; simp)
  · intro d hd
    rw [b5] at hd
    simp only [List.not_mem_nil, false_or] at hd
    obtain ⟨e, he, -, rfl⟩ := hd
    obtain ⟨t, ht, rfl⟩ := hDta e he
    exact ⟨t, ht, (div_div_two t (r + 1)).symm⟩
  · intro x
    rw [b3.flag]
    unfold Flag
    rw [a3 0 _ 0 (Nat.zero_le _), Nat.sub_zero, up_symm_up]
  · intro k; rw [b6, a4]
  · intro hd x hx hp hf
    rw [b6]; exact a6 hd x hx hf (.inl hp)
  · intro hr0 x
    rw [hsp 0 _ (by omega), hA1]
    unfold permAddr
    rw [if_pos hr0, Nat.sub_zero, up_symm_up]
  · rintro rfl y (hy | ⟨hyn, hy | hy⟩)
    · rw [b4 y (fun hm => by
        have := hDtb _ hm
        rw [rtOf_iff (rtOf_in hy)] at hy
        exact hy this), hab1 0 _ le_rfl]
      exact hs0.root 0 y hy
    · cases hrt : rtOf n 0 y with
      | true =>
        rw [b4 y (fun hm => by
          have := hDtb _ hm
          rw [rtOf_iff (rtOf_in hrt)] at hrt
          exact hrt this), hab1 0 _ le_rfl]
        exact hs0.root 0 y hrt
      | false =>
        have hpar : y / 2 < n / 2 ^ (0 + 1) := by
          by_contra hc
          rw [(rtOf_iff (by simpa using hyn)).2 hc] at hrt
          simp at hrt
        have h1 : Flag s1.ext (rtOf n) A1 (y ^^^ 1) := by
          unfold Flag
          rw [a3 0 _ 0 le_rfl, Nat.sub_self, up_zero]
          exact hy
        obtain ⟨p, hp1, hp2⟩ := h1.holder
        rw [holder_sib (rtOf_false (by rw [sb_div]; exact hpar)) (rtOf_false (by rw [sb_sb]; exact hpar)), sb_sb] at hp1
        rcases b3.row y with e | ⟨-, e⟩
        · rw [e, hp1]; rfl
        · exfalso
          rw [hp1] at e
          rw [e.1] at hp2
          simp at hp2
    · cases hrt : rtOf n 0 y with
      | true =>
        rw [b4 y (fun hm => by
          have := hDtb _ hm
          rw [rtOf_iff (rtOf_in hrt)] at hrt
          exact hrt this), hab1 0 _ le_rfl]
        exact hs0.root 0 y hrt
      | false =>
        have hpar : y / 2 < n / 2 ^ (0 + 1) := by
          by_contra hc
          rw [(rtOf_iff (by simpa using hyn)).2 hc] at hrt
          simp at hrt
        have hyD : P.symm (y ^^^ 1) ∈ Dn n D 0 := hy
        have hz : Zone (n / 2 ^ (0 + 1)) (n.testBit 0) (Dn n D (0 + 1)) (y ^^^ 1) := by
          rw [zone_iff hS (hi (0 + 1)).le]
          have hyD' := hyD
          rw [(sg_sinks hi hnR (r := 0) (by omega)).mem, sg_step _ _ _ hr, Perm.mul_apply, Equiv.apply_symm_apply] at hyD'
          refine ⟨?_, hyD'.2⟩
          have h1 : n' / 2 ^ 0 ≤ up 1 ρ (y ^^^ 1) := hyD'.1
          rw [div_succ_row]
          omega
        rcases hz with hz | ⟨h1, h2⟩
        · rw [sb_div] at hz
          exact hkeep y hz (hslot y (by simpa using hyn) (.inl hz)) hyD
        · exfalso
          have := sb_div y
          omega
  · rintro rfl y hy
    have hyD : P.symm y ∈ Dn n D 0 := hy
    have hz : Zone (n / 2 ^ (0 + 1)) (n.testBit 0) (Dn n D (0 + 1)) y := by
      rw [zone_iff hS (hi (0 + 1)).le]
      rw [(sg_sinks hi hnR (r := 0) (by omega)).mem, sg_step _ _ _ hr, Perm.mul_apply, Equiv.apply_symm_apply] at hyD
      refine ⟨?_, hyD.2⟩
      have h1 : n' / 2 ^ 0 ≤ up 1 ρ y := hyD.1
      rw [div_succ_row]
      omega
    have hlt : y < n / 2 ^ 0 := by
      rcases hz with hz | ⟨h1, h2⟩
      · have := (hi 1).bound _ hz
        rw [div_succ_row] at this
        omega
      · rw [h2, div_bit n 0, h1]; simp
    have hpres := hslot y hlt (hz.imp id (·.2))
    rw [b4 y, hab1 0 _ le_rfl]
    · exact hpres.1
    · intro hm
      have hb := hDtb _ hm
      rcases hz with hz | ⟨h1, h2⟩
      · rcases (hDtm _).1 hm with hm | ⟨o, ho, hf, he⟩
        · rw [h.zero rfl] at hm; simp at hm
        · have := (hops.dst o ho hf).2.2
          rw [he] at this
          exact this hz
      · omega
  · intro hd x v hx hv hf
    rw [b6]; exact a7 hd x v hx hv hf
  · rintro rfl y hyn hrt
    have hpar : y / 2 < n / 2 ^ (0 + 1) := by
      by_contra hc
      rw [(rtOf_iff (by simpa using hyn)).2 hc] at hrt
      simp at hrt
    have hDS : ∀ d, d ∈ Dt' ↔ d ∈ (Sn n D 0).map fun p => p.2 / 2 := by
      intro d
      rw [hDtm, h.zero rfl, List.mem_map]
      simp only [List.not_mem_nil, false_or]
      constructor
      · rintro ⟨o, ho, hf, rfl⟩
        rw [hops_def] at ho
        unfold opsAt at ho
        rcases List.mem_append.1 ho with h' | h'
        · obtain ⟨p, hp, rfl⟩ := List.mem_map.1 h'
          exact ⟨p, hp, rfl⟩
        · exfalso
          split at h'
          · simp at h'
          · split at h'
            · simp at h'
            · simp only [List.mem_singleton] at h'
              rw [h'] at hf; simp at hf
      · rintro ⟨p, hp, rfl⟩
        exact ⟨(p.1, p.2, false), by
          rw [hops_def]; unfold opsAt
          exact List.mem_append_left _ (List.mem_map.2 ⟨p, hp, rfl⟩), rfl, rfl⟩
    have hA1A : A1 0 y = A 0 y := by rw [hA1]; unfold permAddr; rw [if_neg (by omega)]
    have hfl : Flag s.ext (rtOf n) A (P.symm (y ^^^ 1)) ↔ (nz s1.ext (A1 0 y) 0).isSome := by
      have := a3 0 (y ^^^ 1) 0 le_rfl
      rw [Nat.sub_self, up_zero, holder_sib (rtOf_false (by rw [sb_div]; exact hpar)) (rtOf_false (by rw [sb_sb]; exact hpar)), sb_sb]
        at this
      unfold Flag
      rw [← this]
    have hsome : (nz s1.ext (A1 0 y) 0).isSome → (A1 0 y).isSome := by
      intro h'
      cases hA : A1 0 y with
      | none => rw [hA] at h'; simp [nz_none] at h'
      | some p => rfl
    rw [hfl, ← hDS, ← hA1A]
    by_cases hm : y / 2 ∈ Dt'
    · by_cases hdd : (nz s1.ext (A1 0 y) 0).isSome
      · refine iff_of_true ?_ (.inl hdd)
        rcases b3.row y with e | ⟨-, e⟩
        · rw [e]; exact hsome hdd
        · rw [e.1] at hdd; simp at hdd
      · refine iff_of_false ?_ (by rintro (h' | h'); exacts [hdd h', h'.2 hm])
        rw [b7 _ hm (hboth _ hm) y rfl ⟨by simpa using hdd, (a2.shape.leaf y).1⟩]
        simp
    · rw [b4 y hm]
      exact ⟨fun h' => .inr ⟨h', hm⟩, fun h' => h'.elim hsome (·.1)⟩
  · intro hK
    rw [kidc_rehash a2.shape b3 hDtb b4 hboth (fun y hy => b7 _ hy (hboth _ hy) y rfl), kidc_perm a3]
    exact @dirt_step Bool kidOps _ _ _ _ _ _ _ _ _ hi hnR hr hK hDtm (by intro d; rw [b5]; simp)
  · refine ⟨fun hT => ?_, fun e => by rw [b5]; simp⟩
    have hAr : ∀ y, A1 r y = A r y := fun y => by rw [hA1]; unfold permAddr; rw [if_neg (by omega)]
    exact tight_step hi hnR hr hT hDtm (by intro d; rw [b5]; simp) a2.shape b3 hDtb (fun y hy => by rw [b4 y hy, hAr])
      (fun d hd => by rw [← hAr, ← hAr]; exact hboth d hd) (fun y hy hde => b7 _ hy (hboth _ hy) y rfl (by rw [hAr]; exact hde))

theorem row_step {n n' : ℕ} {D : List ℕ} (hn : n ≤ 2 ^ 62) (hi : ∀ r, RowInv n n' D r) {A0 : Addr}
    {heap0 : List (INode H)} (hs0 : Shape heap0 (rtOf n) A0) {h0 : ℕ} (hP : PresFrom n A0 D h0) {r : ℕ} (hhr : h0 ≤ r) (hr : r < St.numRows n)
    {s : Pollard H} {A : Addr} {c : ℕ → ℕ → H} {Dt : List ℕ} (h : RowSt s n n' D A0 A c r Dt) :
    ∃ (s1 s2 : Pollard H) (dirty : List (Option PNode)) (A' : Addr) (N : List ℕ),
      Acc.runSwaps vt (posOps (St.numRows n) r (opsAt n n' D r (sg n n' D (St.numRows n) (r + 1)))) s
        ((Dt.map (pd n A0 (r + 1))).map some) = .ok (s1, dirty) ∧
      Acc.rehashDirty vt n dirty s1 [] = .ok (s2, N.map (pd n A0 (r + 2))) ∧
      RowSt s2 n n' D A0 A' (rehashCells r
        (Dt ++ ((opsAt n n' D r (sg n n' D (St.numRows n) (r + 1))).filter fun o => !o.2.2).map fun o => o.2.1 / 2)
        (permCells r (rowPerm n n' D r (sg n n' D (St.numRows n) (r + 1))).symm c)) (r + 1) N ∧
      RowTrk s s2 n D A A' (c 0) r (rowPerm n n' D r (sg n n' D (St.numRows n) (r + 1))) ∧
      (@DirtInv Bool kidOps n n' D (St.numRows n) r (kidc s.ext (rtOf n) A) Dt →
        @DirtInv Bool kidOps n n' D (St.numRows n) (r + 1) (kidc s2.ext (rtOf n) A') N) ∧
      (@DirtInv Bool trueOps n n' D (St.numRows n) r (tcell A) Dt →
        @DirtInv Bool trueOps n n' D (St.numRows n) (r + 1) (tcell A') N) := by
  obtain ⟨s1, s2, dirty, A', N, a1, a2, a3, a4, a5, a6, -⟩ := row_step' hn hi hs0 hr
    (fun t ht q hq _ hin => hP t ht q (by omega) hin) (fun t ht q hq hin => (hP t ht q (by omega) hin).2) h
  exact ⟨s1, s2, dirty, A', N, a1, a2, a3, a4, a5, a6⟩

/-- What the iterations from row `r` on, which move the leaves by `P`, the bottom row by `Q`, do to the leaves. -/
structure Trk (s s' : Pollard H) (n : ℕ) (D : List ℕ) (A A' : Addr) (f : ℕ → H) (r : ℕ) (P Q : Perm ℕ) : Prop where
  flag : ∀ x, Flag s'.ext (rtOf n) A' (P x) ↔ Flag s.ext (rtOf n) A x
  dom : ∀ k, (PosMap.find s'.posmap k).isSome = (PosMap.find s.posmap k).isSome
  know : Dist n f → ∀ x, x < n → (r = 0 → rtOf n 0 x = true ∨ Flag s.ext (rtOf n) A (x ^^^ 1)) →
    (r = 0 → rtOf n 0 (P x) = true ∨ Flag s.ext (rtOf n) A (P.symm (P x ^^^ 1)) ∨ P.symm (P x ^^^ 1) ∈ D) → (0 < r → (A 0 x).isSome) →
    PosMap.find s.posmap (f x) = some x → PosMap.find s'.posmap (f x) = some (P x)
  high : 0 < r → ∀ x, A' 0 (P x) = A 0 x
  del : r = 0 → ∀ t ∈ D, (A' 0 (P t)).isSome
  entry : Dist n f → ∀ x v, x < n → v < 2 ^ 64 → PosMap.find s.posmap (f x) = some v →
    PosMap.find s'.posmap (f x) = some (mv x (if (A' 0 (P x)).isSome then P x else if r = 0 then Q x else x) v)
  seen : r = 0 → 1 < n → ∀ x, x < n → rtOf n 0 (Q x) = false → ((A' 0 (P x)).isSome ↔
    Flag s.ext (rtOf n) A (Q.symm (Q x ^^^ 1)) ∨ ((A 0 (Q x)).isSome ∧ Q x / 2 ∉ (Sn n D 0).map fun p => p.2 / 2))

/-- A remembered leaf has its sibling cached. -/
theorem Flag.sib {heap : List (INode H)} {n : ℕ} {A : Addr} (hs : Shape heap (rtOf n) A) {x : ℕ} (hx : x < n)
    (h : rtOf n 0 x = false → Flag heap (rtOf n) A (x ^^^ 1)) : (A 0 x).isSome := by
  cases hrt : rtOf n 0 x with
  | true => exact hs.root 0 x hrt
  | false =>
    have hpar : x / 2 < n / 2 ^ (0 + 1) := by
      by_contra hc
      rw [(rtOf_iff (by simpa using hx)).2 hc] at hrt
      simp at hrt
    obtain ⟨p, hp1, -⟩ := (h hrt).holder
    rw [holder_sib (rtOf_false (by rw [sb_div]; exact hpar)) (rtOf_false (by rw [sb_sb]; exact hpar)), sb_sb] at hp1
    rw [hp1]; rfl

theorem sib_lt {n x : ℕ} (hx : x < n) (h : rtOf n 0 x = false) : x ^^^ 1 < n := by
  have hpar : x / 2 < n / 2 ^ (0 + 1) := by
    by_contra hc
    rw [(rtOf_iff (by simpa using hx)).2 hc] at h
    simp at h
  have hpar' : x / 2 < n / 2 := by simpa using hpar
  rw [xor_one_cases]; split <;> omega

theorem perm_lt {n : ℕ} {P : Perm ℕ} (h : ∀ x, x < n → P x < n) {x : ℕ} (hx : x < n) : P.symm x < n := by
  have hinj : Set.InjOn P (Finset.range n) := fun a _ b _ h => P.injective h
  have himg : (Finset.range n).image P = Finset.range n := by
    apply Finset.eq_of_subset_of_card_le
    · intro w hw
      obtain ⟨v, hv, rfl⟩ := Finset.mem_image.1 hw
      exact Finset.mem_range.2 (h v (Finset.mem_range.1 hv))
    · rw [Finset.card_image_of_injOn hinj]
  have : x ∈ (Finset.range n).image P := by rw [himg]; exact Finset.mem_range.2 hx
  obtain ⟨w, hw, e⟩ := Finset.mem_image.1 this
  rw [← e, Equiv.symm_apply_apply]
  exact Finset.mem_range.1 hw

theorem removeRows_ok {n n' : ℕ} {D : List ℕ} (hn : n ≤ 2 ^ 62) (hi : ∀ r, RowInv n n' D r) {A0 : Addr}
    {heap0 : List (INode H)} (hs0 : Shape heap0 (rtOf n) A0) {h0 : ℕ} (hP : PresFrom n A0 D h0) :
    ∀ (k r m : ℕ) (s : Pollard H) (A : Addr) (c : ℕ → ℕ → H) (Dt : List ℕ), h0 ≤ r → k + r = St.numRows n → m ≤ k →
    (∀ q, r + m ≤ q → q < St.numRows n → opsAt n n' D q (sg n n' D (St.numRows n) (q + 1)) = []) →
    RowSt s n n' D A0 A c r Dt →
    ∃ (s' : Pollard H) (A' : Addr) (c' : ℕ → ℕ → H), Acc.removeRows vt n k ((List.range' r m).map fun q =>
        posOps (St.numRows n) q (opsAt n n' D q (sg n n' D (St.numRows n) (q + 1)))) s
        (Dt.map (pd n A0 (r + 1))) = .ok (s', []) ∧ RowSt s' n n' D A0 A' c' (St.numRows n) [] ∧
      c' 0 = c 0 ∘ up r (sg n n' D (St.numRows n) r).symm ∧
      Trk s s' n D A A' (c 0) r (up r (sg n n' D (St.numRows n) r)) (rowPerm n n' D 0 (sg n n' D (St.numRows n) 1)) ∧
      (@DirtInv Bool kidOps n n' D (St.numRows n) r (kidc s.ext (rtOf n) A) Dt →
        @DirtInv Bool kidOps n n' D (St.numRows n) (St.numRows n) (kidc s'.ext (rtOf n) A') []) ∧
      (@DirtInv Bool trueOps n n' D (St.numRows n) r (tcell A) Dt →
        @DirtInv Bool trueOps n n' D (St.numRows n) (St.numRows n) (tcell A') []) := by
  have hnR : n ≤ 2 ^ St.numRows n := le_two_pow_numRows (by omega)
  intro k
  induction k with
  | zero =>
    intro r m s A c Dt hhr hk hm hnil hJ
    have hrR : r = St.numRows n := by omega
    subst hrR
    have hDt : Dt = [] := by
      apply List.eq_nil_iff_forall_not_mem.2
      intro d hd
      have := hJ.dirt.bound d hd
      rw [Nat.div_eq_of_lt (lt_of_le_of_lt hnR (Nat.pow_lt_pow_right (by omega) (by omega)))] at this
      omega
    subst hDt
    refine ⟨s, A, c, rfl, hJ, ?_, ?_, fun h => h, fun h => h⟩
    · rw [sg_top _ _ _ le_rfl]
      funext x
      rw [show ((1 : Perm ℕ).symm) = 1 from rfl, up_one]; rfl
    · rw [sg_top _ _ _ le_rfl, up_one]
      refine ⟨fun _ => Iff.rfl, fun _ => rfl, fun _ _ _ _ _ _ h => h, fun _ _ => rfl, ?_, ?_, ?_⟩
      rotate_left
      · intro _ x v hx hv hf
        rw [hf]
        congr 1
        have : (if (A 0 ((1 : Perm ℕ) x)).isSome then (1 : Perm ℕ) x else
            if St.numRows n = 0 then rowPerm n n' D 0 (sg n n' D (St.numRows n) 1) x else x) = x := by
          split
          · rfl
          · rename_i hns
            split
            · rename_i h0
              exfalso
              rw [h0] at hnR
              obtain rfl : x = 0 := by omega
              refine hns (hJ.ph.shape.root 0 0 ?_)
              rw [rtOf_iff (by simpa using hx)]
              omega
            · rfl
        rw [this, mv_self (by omega) hv]
      · intro h0 h1
        rw [h0] at hnR
        omega
      intro h0 t ht
      have h1 : t / 2 ^ 0 < n / 2 ^ 0 := by simpa using (hi 0).bound t ht
      have h2 := (hP t ht 0 (by omega) h1).1
      rw [← hJ.above 0 _ (by omega), pow_zero, Nat.div_one] at h2
      exact h2
  | succ k ih =>
    intro r m s A c Dt hhr hk hm hnil hJ
    have hr : r < St.numRows n := by omega
    obtain ⟨s1, s2, dirty, A', N, a1, a2, a3, a4, a5, a6⟩ := row_step hn hi hs0 hP hhr hr hJ
    have hhead : (((List.range' r m).map fun q =>
        posOps (St.numRows n) q (opsAt n n' D q (sg n n' D (St.numRows n) (q + 1)))).headD []) =
        posOps (St.numRows n) r (opsAt n n' D r (sg n n' D (St.numRows n) (r + 1))) := by
      cases m with
      | zero => rw [hnil r (by omega) hr]; rfl
      | succ m => rfl
    have htail : (((List.range' r m).map fun q =>
        posOps (St.numRows n) q (opsAt n n' D q (sg n n' D (St.numRows n) (q + 1)))).tail) =
        (List.range' (r + 1) (m - 1)).map fun q =>
        posOps (St.numRows n) q (opsAt n n' D q (sg n n' D (St.numRows n) (q + 1))) := by
      cases m with
      | zero => rfl
      | succ m => rfl
    obtain ⟨s3, A3, c3, d1, d2, d3, d4, d5, d6⟩ := ih (r + 1) (m - 1) s2 A' _ N (by omega) (by omega) (by omega)
      (fun q hq hqR => hnil q (by omega) hqR) a3
    refine ⟨s3, A3, c3, ?_, d2, ?_, ?_, fun h => d5 (a5 h), fun h => d6 (a6 h)⟩
    · rw [Acc.removeRows, hhead, htail, a1, ok_bind]
      simp only
      rw [a2, ok_bind]
      exact d1
    · rw [d3, sg_step _ _ _ hr]
      funext x
      simp only [Function.comp]
      generalize (Dt ++ _ : List ℕ) = Dt'
      have e0 : ∀ y, rehashCells r Dt' (permCells r (rowPerm n n' D r (sg n n' D (St.numRows n) (r + 1))).symm c) 0 y =
          c 0 (up r (rowPerm n n' D r (sg n n' D (St.numRows n) (r + 1))).symm y) := by
        intro y; simp [rehashCells, permCells]
      rw [e0]
      congr 1
      have : (up 1 (sg n n' D (St.numRows n) (r + 1)) * rowPerm n n' D r (sg n n' D (St.numRows n) (r + 1))).symm =
          (rowPerm n n' D r (sg n n' D (St.numRows n) (r + 1))).symm * up 1 (sg n n' D (St.numRows n) (r + 1)).symm := by
        ext y; rfl
      rw [this, up_mul, up_up]; rfl
    · have hc0 : ∀ x, x < n → rehashCells r
          (Dt ++ ((opsAt n n' D r (sg n n' D (St.numRows n) (r + 1))).filter fun o => !o.2.2).map fun o => o.2.1 / 2)
          (permCells r (rowPerm n n' D r (sg n n' D (St.numRows n) (r + 1))).symm c) 0
          (up r (rowPerm n n' D r (sg n n' D (St.numRows n) (r + 1))) x) = c 0 x := by
        intro x _
        generalize (Dt ++ _ : List ℕ) = Dt'
        simp [rehashCells, permCells, up_symm_up]
      have hQ0 : r = 0 → rowPerm n n' D r (sg n n' D (St.numRows n) (r + 1)) = rowPerm n n' D 0 (sg n n' D (St.numRows n) 1) := by
        rintro rfl; rfl
      generalize rowPerm n n' D 0 (sg n n' D (St.numRows n) 1) = Q at *
      have hstep : ∀ x, up r (sg n n' D (St.numRows n) r) x = up (r + 1) (sg n n' D (St.numRows n) (r + 1))
          (up r (rowPerm n n' D r (sg n n' D (St.numRows n) (r + 1))) x) := by
        intro x
        rw [sg_step _ _ _ hr, up_mul, up_up]; rfl
      generalize hPd : rowPerm n n' D r (sg n n' D (St.numRows n) (r + 1)) = P at *
      generalize (rehashCells r _ _ : ℕ → ℕ → H) = c2 at *
      have hdist : Dist n (c 0) → Dist n (c2 0) := by
        intro hd x y hx hy he
        have hsur : ∀ z, z < n → ∃ w, w < n ∧ up r P w = z :=
          fun z hz => ⟨_, perm_lt a4.bound hz, Equiv.apply_symm_apply _ _⟩
        obtain ⟨v, hv, rfl⟩ := hsur x hx
        obtain ⟨w, hw, rfl⟩ := hsur y hy
        rw [hc0 v hv, hc0 w hw] at he
        rw [hd v w hv hw he]
      refine ⟨?_, fun k => by rw [d4.dom, a4.dom], ?_, ?_, ?_, ?_, ?_⟩
      · intro x
        rw [hstep, d4.flag, a4.flag]
      · intro hd x hx hs1 hs2 hpr hf
        have hs2' : r = 0 → rtOf n 0 (P x) = true ∨ Flag s.ext (rtOf n) A (P.symm (P x ^^^ 1)) ∨ P.symm (P x ^^^ 1) ∈ D := by
          intro h0
          rcases hs2 h0 with h1 | h1
          · left
            subst h0
            rw [hstep, up_zero] at h1
            obtain ⟨e1, e2⟩ := rtOf_true.1 h1
            have hS := sg_sinks hi hnR (r := 0 + 1) (by omega)
            rw [up1_apply] at e2
            have e3 : rootIdx n 0 = n - 1 ∧ n % 2 = 1 := by
              have := rtOf_in h1
              have h2 : ¬ (n - 1) / 2 < n / 2 ^ (0 + 1) → True := fun _ => trivial
              rw [Nat.testBit_zero] at e1
              simp at e1
              refine ⟨?_, e1⟩
              unfold rootIdx
              simp
              omega
            have e4 : sg n n' D (St.numRows n) (0 + 1) (P x / 2) = n / 2 := by omega
            have e5 : P x / 2 = n / 2 := by
              have hf := hS.fix (n / 2) (by simp)
              exact (sg n n' D (St.numRows n) (0 + 1)).injective (by rw [e4, hf])
            rw [rtOf_true]
            exact ⟨(rtOf_true.1 h1).1, by omega⟩
          · right
            have h2 : up r (sg n n' D (St.numRows n) r) x ^^^ 1 = up r (sg n n' D (St.numRows n) r) (P.symm (P x ^^^ 1)) := by
              rw [hstep, hstep, ← up_sb (by omega)]
              subst h0
              rw [up_zero, Equiv.apply_symm_apply]
            rwa [h2, Equiv.symm_apply_apply] at h1
        rw [hstep]
        have hA0 : (A 0 x).isSome := by
          by_cases h0 : r = 0
          · refine Flag.sib hJ.ph.shape hx (fun hrt => ?_)
            rcases hs1 h0 with h1 | h1
            · rw [hrt] at h1; simp at h1
            · exact h1
          · exact hpr (by omega)
        have h1 := a4.know hd x hx hA0 hf
        rw [← hc0 x hx] at h1 ⊢
        refine d4.know (hdist hd) _ (a4.bound x hx) (by omega) (by omega) (fun _ => ?_) h1
        by_cases h0 : r = 0
        · subst h0
          refine a4.low rfl _ ?_
          rw [up_zero]
          rcases hs2' rfl with h2 | h2
          · exact .inl h2
          · exact .inr ⟨by have := a4.bound x hx; rwa [up_zero] at this, h2⟩
        · rw [a4.high (by omega)]; exact hA0
      · intro h0 x
        rw [hstep, d4.high (by omega), a4.high h0]
      · intro h0 t ht
        subst h0
        rw [hstep, d4.high (by omega)]
        refine a4.del rfl _ ?_
        rw [up_zero, Equiv.symm_apply_apply]; exact ht
      · intro hd x v hx hv hf
        have h1 := a4.entry hd x v hx hv hf
        have hb := a4.bound x hx
        rw [← hc0 x hx] at h1 ⊢
        have h2 := d4.entry (hdist hd) _ _ hb (by split; exacts [mv_lt _ _ _, hv]) h1
        rw [h2, ← hstep]
        congr 1
        rw [if_neg (by omega : ¬ r + 1 = 0)]
        by_cases h0 : r = 0
        · have hu : up r P x = Q x := by
            have e := hQ0 h0
            subst h0
            rw [up_zero, ← e]
          have hc : (A 0 x).isSome = true ∨ r = 0 := .inr h0
          rw [if_pos hc, if_pos h0, mv_comp (by omega) (by omega), hu]
        · rw [if_neg h0]
          have hh : A3 0 (up r (sg n n' D (St.numRows n) r) x) = A 0 x := by
            rw [hstep, d4.high (by omega), a4.high (by omega)]
          rw [hh]
          by_cases hp : (A 0 x).isSome
          · have hc : (A 0 x).isSome = true ∨ r = 0 := .inl hp
            rw [if_pos hc, if_pos hp, if_pos hp, mv_comp (by omega) (by omega)]
          · have hc : ¬ ((A 0 x).isSome = true ∨ r = 0) := by tauto
            rw [if_neg hp, if_neg hc, if_neg hp, mv_self (by omega) hv, mv_self (by omega) hv]
      · intro h0 _ x hx hrt
        have e := hQ0 h0
        subst h0
        subst e
        have hb := a4.bound x hx
        rw [hstep, d4.high (by omega)]
        rw [up_zero] at hb ⊢
        exact a4.seen rfl _ hb hrt

end Pol
end Utreexo
