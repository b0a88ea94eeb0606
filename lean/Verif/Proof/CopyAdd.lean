import Verif.Proof.PolFire
import Verif.Proof.PolApi
import Verif.Proof.PolAdd
import Verif.Model.Copy

/-!
# Additions that leave the old nodes alone

If the new leaves are too few to be merged with an old tree, `Add` writes only to objects that it made itself.
-/

set_option linter.unusedSectionVars false

namespace Utreexo
open Spec Equiv

variable {H : Type} [DecidableEq H] [HashOps H]

namespace Pol

/-- The objects below `B` are as before. -/
def Same (B : ℕ) (heap heap' : List (INode H)) : Prop := (∀ i, i < B → heap'[i]? = heap[i]?) ∧ B ≤ heap'.length

theorem Same.trans {B : ℕ} {a b c : List (INode H)} (h : Same B a b) (h' : Same B b c) : Same B a c :=
  ⟨fun i hi => (h'.1 i hi).trans (h.1 i hi), h'.2⟩

theorem Same.set {B q : ℕ} {heap : List (INode H)} {x : INode H} (hb : B ≤ heap.length) (h : B ≤ q) : Same B heap (heap.set q x) :=
  ⟨fun i hi => List.getElem?_set_ne (by omega), by simpa using hb⟩

theorem Same.append {B : ℕ} {heap l : List (INode H)} (hb : B ≤ heap.length) : Same B heap (heap ++ l) :=
  ⟨fun i hi => List.getElem?_append_left (by omega), by rw [List.length_append]; omega⟩

/-- The objects of the roots. -/
def nodes (s : Pollard H) : List (Option ℕ) := s.roots.map fun r => r.e.node

/-- Addresses from `B` on. -/
def Beyond (B : ℕ) (S : List (Option ℕ)) : Prop := ∀ o ∈ S, ∃ p, B ≤ p ∧ o = some p

theorem prune_same {B ptr : ℕ} {heap heap' : List (INode H)} (hb : B ≤ heap.length) (hp : B ≤ ptr)
    (h : prune heap (some ptr) = .ok heap') : Same B heap heap' := by
  unfold prune at h
  obtain ⟨x, -, h⟩ := bind_eq_ok.1 h
  obtain ⟨n0, -, h⟩ := bind_eq_ok.1 h
  obtain ⟨h1, e1, h⟩ := bind_eq_ok.1 h
  obtain ⟨n1, -, h⟩ := bind_eq_ok.1 h
  obtain ⟨q, hq, -, rfl⟩ := store_inv e1
  cases hq
  obtain ⟨q, hq, -, rfl⟩ := store_inv h
  cases hq
  have s1 : Same B heap (heap.set ptr { x with n0 := n0 }) := Same.set hb hp
  exact s1.trans (Same.set s1.2 hp)

theorem mergeRoot_same {s s' : Pollard H} {pos : ℕ} {x : H} {nr : PNode} (h : mergeRoot s pos x = .ok (nr, s')) {B : ℕ}
    (hb : B ≤ s.ext.length) {N S : List (Option ℕ)} (hn : nodes s = N ++ S) (h2 : 2 ≤ S.length) (hS : Beyond B S) :
    ∃ S', nodes s' = N ++ S' ∧ S'.length + 1 = S.length ∧ Beyond B S' ∧ Same B s.ext s'.ext := by
  unfold mergeRoot at h
  split at h
  · rename_i r l rest hr
    have hroots : s.roots = rest.reverse ++ [l, r] := by
      have := congrArg List.reverse hr
      simpa using this
    obtain ⟨S0, a, b, rfl⟩ : ∃ S0 a b, S = S0 ++ [a, b] := by
      rcases List.eq_nil_or_concat S with rfl | ⟨S1, b, rfl⟩
      · simp at h2
      rcases List.eq_nil_or_concat S1 with rfl | ⟨S0, a, rfl⟩
      · simp at h2
      exact ⟨S0, a, b, by simp⟩
    have hn' : rest.reverse.map (fun r => r.e.node) ++ [l.e.node, r.e.node] = (N ++ S0) ++ [a, b] := by
      unfold nodes at hn
      rw [hroots] at hn
      simpa using hn
    obtain ⟨e1, e2⟩ := List.append_inj' hn' rfl
    simp only [List.cons.injEq, and_true] at e2
    obtain ⟨pa, ha, ha'⟩ := hS a (by simp)
    obtain ⟨pb, hb', hb''⟩ := hS b (by simp)
    obtain ⟨lx, -, h⟩ := bind_eq_ok.1 h
    obtain ⟨rx, -, h⟩ := bind_eq_ok.1 h
    obtain ⟨h1, f1, h⟩ := bind_eq_ok.1 h
    obtain ⟨rx', -, h⟩ := bind_eq_ok.1 h
    obtain ⟨h2', f2, h⟩ := bind_eq_ok.1 h
    obtain ⟨q1, hq1, -, rfl⟩ := store_inv f1
    obtain ⟨q2, hq2, -, rfl⟩ := store_inv f2
    rw [e2.1, ha'] at hq1
    rw [e2.2, hb''] at hq2
    cases hq1
    cases hq2
    have s1 : Same B s.ext (s.ext.set pa { lx with n0 := rx.n0, n1 := rx.n1 }) := Same.set hb ha
    have s2 := s1.trans (Same.set (x := { rx' with n0 := lx.n0, n1 := lx.n1 }) s1.2 hb')
    obtain ⟨lx2, -, h⟩ := bind_eq_ok.1 h
    obtain ⟨rx2, -, h⟩ := bind_eq_ok.1 h
    dsimp only at h
    have s3 := s2.trans (Same.append (l := [{ hash := x, n0 := l.e.node, n1 := r.e.node }]) s2.2)
    obtain ⟨h3, nd, q, s4, hq, hB, rfl⟩ : ∃ h3 nd q, Same B s.ext h3 ∧ nd.e.node = some q ∧ B ≤ q ∧
        s' = { s with ext := h3, roots := rest.reverse ++ [nd] } := by
      split at h
      · obtain ⟨h3, f3, h⟩ := bind_eq_ok.1 h
        exact ⟨h3, _, _, s3.trans (prune_same s3.2 s2.2 f3), rfl, s2.2, (Prod.mk.inj (Except.ok.inj h)).2.symm⟩
      · exact ⟨_, _, _, s3, rfl, s2.2, (Prod.mk.inj (Except.ok.inj h)).2.symm⟩
    refine ⟨S0 ++ [some q], ?_, by simp, ?_, s4⟩
    · unfold nodes
      dsimp only
      rw [List.map_append, e1]
      simp only [List.map_cons, List.map_nil, List.append_assoc, hq]
    · intro o ho
      rcases List.mem_append.1 ho with ho | ho
      · exact hS o (by simp [ho])
      · rw [List.mem_singleton] at ho
        exact ⟨q, hB, ho⟩
  · cases h

theorem mergeLoop_same (n : ℕ) {t : ℕ} (ht : t < 64) (hz : n.testBit t = false) {B : ℕ} {N : List (Option ℕ)} :
    ∀ (fuel row : ℕ) (root : ℤ) (nr : PNode) {s s' : Pollard H} {S : List (Option ℕ)}, Acc.mergeLoop vt n fuel row root nr s = .ok s' →
      row ≤ t → t - row < S.length → B ≤ s.ext.length → nodes s = N ++ S → Beyond B S →
      ∃ S', nodes s' = N ++ S' ∧ Beyond B S' ∧ Same B s.ext s'.ext
  | 0, _, _, _, _, _, _, h, _, _, _, _, _ => by cases h
  | fuel + 1, row, root, nr, s, s', S, h, hrow, hlen, hb, hn, hS => by
    rw [Acc.mergeLoop, hasRoot_eq (by omega), ok_bind] at h
    cases hbit : n.testBit row with
    | false =>
      rw [hbit] at h
      obtain rfl := Except.ok.inj h
      exact ⟨S, hn, hS, ⟨fun _ _ => rfl, hb⟩⟩
    | true =>
      have hne : row ≠ t := by rintro rfl; rw [hz] at hbit; cases hbit
      rw [hbit, if_pos rfl] at h
      obtain ⟨l, -, h⟩ := bind_eq_ok.1 h
      obtain ⟨lh, -, h⟩ := bind_eq_ok.1 h
      obtain ⟨rh, -, h⟩ := bind_eq_ok.1 h
      obtain ⟨pp, -, h⟩ := bind_eq_ok.1 h
      obtain ⟨⟨nr', s1⟩, h1, h⟩ := bind_eq_ok.1 h
      obtain ⟨S1, k1, k2, k3, k4⟩ := mergeRoot_same (show mergeRoot s pp _ = _ from h1) hb hn (by omega) hS
      obtain ⟨S2, j1, j2, j3⟩ := mergeLoop_same n ht hz fuel (row + 1) (root - 1) nr' h (by omega) (by omega) k4.2 k1 k3
      exact ⟨S2, j1, j2, k4.trans j3⟩

theorem addOne_same {s s' : Pollard H} {leaf : Leaf H} (h : Acc.addOne vt s leaf = .ok s') {t B : ℕ} (ht : t < 64)
    (hz : s.numLeaves.testBit t = false) {N S : List (Option ℕ)} (hb : B ≤ s.ext.length) (hn : nodes s = N ++ S) (hS : Beyond B S)
    (hlen : t ≤ S.length) : ∃ S', nodes s' = N ++ S' ∧ Beyond B S' ∧ Same B s.ext s'.ext := by
  unfold Acc.addOne at h
  obtain ⟨⟨nr, s1⟩, h1, h0⟩ := bind_eq_ok.1 h
  clear h
  obtain ⟨s2, h2, h⟩ := bind_eq_ok.1 h0
  clear h0
  have h1 : newLeaf s leaf = .ok (nr, s1) := h1
  unfold newLeaf at h1
  obtain ⟨-, rfl⟩ := Prod.mk.inj (Except.ok.inj h1)
  have sm : Same B s.ext (s.ext ++ [{ hash := leaf.1, n0 := if leaf.2 then some remember else none, n1 := none }]) := Same.append hb
  obtain ⟨S2, j1, j2, j3⟩ := mergeLoop_same s.numLeaves ht hz (S := S ++ [some s.ext.length]) (N := N) (B := B) _ _ _ _ h2 (by omega)
    (by rw [List.length_append, List.length_singleton]; omega) sm.2
    (by
      unfold nodes at hn ⊢
      dsimp only
      rw [List.map_append, hn, List.append_assoc]
      rfl)
    (by
      intro o ho
      rcases List.mem_append.1 ho with ho | ho
      · exact hS o ho
      · rw [List.mem_singleton] at ho
        exact ⟨_, hb, ho⟩)
  have j4 := sm.trans j3
  dsimp only at h
  split at h
  · obtain rfl := Except.ok.inj h
    exact ⟨S2, j1, j2, j4⟩
  · split at h
    · rename_i r0 r1 rest hr
      obtain ⟨p0, -, h⟩ := bind_eq_ok.1 h
      obtain ⟨p1, -, h⟩ := bind_eq_ok.1 h
      obtain rfl := Except.ok.inj h
      refine ⟨S2, ?_, j2, j4⟩
      rw [← j1]
      unfold nodes
      rw [hr]
      rfl
    · cases h

theorem testBit_low {n0 t j i : ℕ} (hd : 2 ^ t ∣ n0) (hj : j < 2 ^ t) : (n0 + j).testBit i = if i < t then j.testBit i else n0.testBit i := by
  obtain ⟨a, rfl⟩ := hd
  rw [Nat.testBit_two_pow_mul_add a hj]
  split
  · rfl
  · rename_i h
    have := Nat.testBit_two_pow_mul_add a (b := 0) (i := t) (Nat.two_pow_pos t) i
    rw [Nat.add_zero, if_neg h] at this
    exact this.symm

theorem low_bits {n0 t i : ℕ} (hd : 2 ^ t ∣ n0) (hi : i < t) : n0.testBit i = false := by
  have := testBit_low (i := i) hd (Nat.two_pow_pos t)
  rw [if_pos hi] at this
  simpa using this

/-- The new trees come after the old ones. -/
theorem treeRows_split {n0 t k : ℕ} (hd : 2 ^ t ∣ n0) (hk : k < 2 ^ t) : treeRows (n0 + k) 64 = treeRows n0 64 ++ treeRows k 64 := by
  have hkb : ∀ x, k.testBit x = true → x < t := by
    intro x hx
    by_contra hc
    rw [Nat.testBit_lt_two_pow (lt_of_lt_of_le hk (Nat.pow_le_pow_right (by omega) (by omega)))] at hx
    simp at hx
  have hnb : ∀ x, n0.testBit x = true → t ≤ x := by
    intro x hx
    by_contra hc
    rw [low_bits hd (by omega)] at hx
    simp at hx
  refine sorted_gt_ext (treeRows_sorted _ _) ?_ ?_
  · rw [List.pairwise_append]
    refine ⟨treeRows_sorted _ _, treeRows_sorted _ _, ?_⟩
    intro a ha b hb
    have h1 := hnb a (mem_treeRows.1 ha).2
    have h2 := hkb b (mem_treeRows.1 hb).2
    omega
  · intro x
    rw [List.mem_append, mem_treeRows, mem_treeRows, mem_treeRows, testBit_low hd hk]
    split
    · rename_i hx
      rw [low_bits hd hx]; simp
    · rename_i hx
      constructor
      · exact fun h => .inl h
      · rintro (h | h)
        · exact h
        · exact absurd (hkb x h.2) hx

theorem rootCoords_split {n0 t k : ℕ} (hd : 2 ^ t ∣ n0) (hk : k < 2 ^ t) : ∃ cs, rootCoords (n0 + k) = rootCoords n0 ++ cs := by
  unfold rootCoords
  rw [treeRows_split hd hk, List.map_append]
  refine ⟨(treeRows k 64).map fun t => (t, rootIdx (n0 + k) t), ?_⟩
  congr 1
  apply List.map_congr_left
  intro r hr
  have htr : t ≤ r := by
    by_contra hc
    rw [mem_treeRows, low_bits hd (by omega)] at hr
    simp at hr
  obtain ⟨a, rfl⟩ := hd
  have : (2 ^ t * a + k) / 2 ^ (r + 1) = 2 ^ t * a / 2 ^ (r + 1) := by
    rw [show r + 1 = t + (r + 1 - t) by omega, pow_add, ← Nat.div_div_eq_div_mul, ← Nat.div_div_eq_div_mul,
      Nat.mul_add_div (Nat.two_pow_pos t), Nat.div_eq_of_lt hk, Nat.add_zero, Nat.mul_div_cancel_left _ (Nat.two_pow_pos t)]
  unfold rootIdx
  rw [this]

/-- A number whose low bits are all set. -/
theorem full_of_bits {j t : ℕ} (hj : j < 2 ^ t) (h : ∀ i, i < t → j.testBit i = true) : j = 2 ^ t - 1 := by
  apply Nat.eq_of_testBit_eq
  intro i
  rw [Nat.testBit_two_pow_sub_one]
  by_cases hi : i < t
  · rw [h i hi]; simp [hi]
  · rw [Nat.testBit_lt_two_pow (lt_of_lt_of_le hj (Nat.pow_le_pow_right (by omega) (by omega)))]; simp [hi]

theorem add_same {n0 t B : ℕ} {N : List (Option ℕ)} (hd : 2 ^ t ∣ n0) (hN : N.length = (treeRows n0 64).length) :
    ∀ (leaves : List (Leaf H)) (s s' : Pollard H) (j : ℕ) (f : ℕ → H) (A : Addr) (S : List (Option ℕ)), Inv s (n0 + j) f A →
      j + leaves.length < 2 ^ t → n0 + j + leaves.length ≤ 2 ^ 62 → nodes s = N ++ S → B ≤ s.ext.length → Beyond B S →
      Acc.add vt s leaves = .ok s' → ∃ S', nodes s' = N ++ S' ∧ Beyond B S' ∧ Same B s.ext s'.ext := by
  intro leaves
  induction leaves with
  | nil =>
    intro s s' j f A S _ _ _ hn hb hS h
    obtain rfl := Except.ok.inj h
    exact ⟨S, hn, hS, fun _ _ => rfl, hb⟩
  | cons l ls ih =>
    intro s s' j f A S hI hj hs hn hb hS h
    simp only [List.length_cons] at hj hs
    have h : (Acc.addOne vt s l >>= fun s1 => Acc.add vt s1 ls) = .ok s' := h
    obtain ⟨s1, h1, h2⟩ := bind_eq_ok.1 h
    clear h
    obtain ⟨s1', A1, e1, hI1, -⟩ := addOne_ok hI l (by omega)
    rw [h1] at e1
    obtain rfl := Except.ok.inj e1
    obtain ⟨z, hz, hbits, hz0⟩ := exists_zero_bit (n := n0 + j) (by omega)
    have hjt : j < 2 ^ t := by omega
    have hzt : z ≤ t := by
      by_contra hc
      have := full_of_bits hjt (fun i hi => by
        have := hbits i (by omega)
        rwa [testBit_low hd hjt, if_pos hi] at this)
      omega
    have hlen : S.length = (treeRows j 64).length := by
      have g1 := congrArg List.length hI.ph.roots.node
      have g2 := congrArg List.length hn
      unfold nodes at g2
      unfold rootCoords at g1
      rw [treeRows_split hd hjt] at g1
      simp only [List.length_map, List.length_append] at g1 g2
      omega
    have hzS : z ≤ S.length := by
      rw [hlen]
      have : (List.range z).Subperm (treeRows j 64) := by
        refine List.nodup_range.subperm ?_
        intro i hi
        have hi := List.mem_range.1 hi
        have := hbits i hi
        rw [testBit_low hd hjt, if_pos (by omega)] at this
        exact mem_treeRows.2 ⟨by omega, this⟩
      simpa using this.length_le
    obtain ⟨S1, k1, k2, k3⟩ := addOne_same h1 hz (by rw [hI.ph.num]; exact hz0) hb hn hS hzS
    have hI1 : Inv s1 (n0 + (j + 1)) (Function.update f (n0 + j) l.1) A1 := by rw [← Nat.add_assoc]; exact hI1
    obtain ⟨S2, m1, m2, m3⟩ := ih s1 s' (j + 1) _ A1 S1 hI1 (by omega) (by omega) k1 k3.2 k2 h2
    exact ⟨S2, m1, m2, k3.trans m3⟩

theorem nz_same {B p b : ℕ} {heap heap' : List (INode H)} (h : Same B heap heap') (hp : p < B) : nz heap' (some p) b = nz heap (some p) b := by
  unfold nz
  rw [Option.bind_some, Option.bind_some, h.1 p hp]

/-- An object keeps its rank if the tree it is in is still there. -/
theorem Inv.rank_of {s : Pollard H} {n : ℕ} {f : ℕ → H} {A : Addr} (h : Inv s n f A) (hn : n ≤ 2 ^ 62) {heap' : List (INode H)}
    (hs : Same s.ext.length s.ext heap') {rk : ℕ → ℕ} (h2 : ∀ p b k, b < 2 → nz heap' (some p) b = some k → k < heap'.length ∧ rk p = rk k + 1)
    (hr : ∀ c ∈ rootCoords n, ∀ p, A c.1 c.2 = some p → rk p = c.1 + 1) :
    ∀ (d r : ℕ), 64 ≤ r + d → ∀ i p, A r i = some p → rk p = r + 1 := by
  intro d
  induction d with
  | zero =>
    intro r hr64 i p hp
    have hz : n / 2 ^ r = 0 := Nat.div_eq_of_lt (lt_of_lt_of_le (by omega : n < 2 ^ 64) (Nat.pow_le_pow_right (by omega) (by omega)))
    rw [h.out r i (by rw [hz]; omega)] at hp
    simp at hp
  | succ d ih =>
    intro r hrd i p hp
    have hin : i < n / 2 ^ r := by
      by_contra hc
      rw [h.out r i hc] at hp
      simp at hp
    cases hrt : rtOf n r i with
    | true =>
      have hm : (r, i) ∈ rootCoords n := by
        obtain ⟨g1, rfl⟩ := rtOf_true.1 hrt
        refine List.mem_map.2 ⟨r, mem_treeRows.2 ⟨?_, g1⟩, rfl⟩
        by_contra hc
        rw [Nat.testBit_lt_two_pow (lt_of_lt_of_le (by omega : n < 2 ^ 64) (Nat.pow_le_pow_right (by omega) (by omega)))] at g1
        simp at g1
      exact hr _ hm p hp
    | false =>
      have hk := h.ph.shape.kids r i hrt
      rw [hp] at hk
      cases hh : holder (rtOf n) A (r + 1) (i / 2) with
      | none => rw [hh, nz_none] at hk; simp at hk
      | some q =>
        rw [hh] at hk
        obtain ⟨y, hy⟩ : ∃ y, A (r + 1) y = some q := by
          rcases holder_some hh with ⟨-, g⟩ | ⟨-, -, g⟩
          · exact ⟨_, g⟩
          · exact ⟨_, g⟩
        have hq := (h.ph.shape.bnd _ _ _ hy).2
        have g1 := ih (r + 1) (by omega) y q hy
        have g2 := (h2 q (i % 2) p (Nat.mod_lt _ (by omega)) (by rw [nz_same hs hq]; exact hk.symm)).2
        omega

/-- A pollard whose objects are untouched, next to one that has more trees. -/
theorem Inv.beside {s s' : Pollard H} {n n' : ℕ} {f f' : ℕ → H} {A A' : Addr} (h : Inv s n f A) (h' : Inv s' n' f' A') (hn : n ≤ 2 ^ 62)
    (hs : Same s.ext.length s.ext s'.ext) {S : List (Option ℕ)} (hN : nodes s' = nodes s ++ S) {cs : List (ℕ × ℕ)}
    (hc : rootCoords n' = rootCoords n ++ cs) : Inv { s with ext := s'.ext } n f A := by
  have hnz : ∀ r i b, nz s'.ext (A r i) b = nz s.ext (A r i) b := by
    intro r i b
    cases hA : A r i with
    | none => rfl
    | some p => exact nz_same hs (h.ph.shape.bnd _ _ _ hA).2
  have hh : ∀ r i b, nz s'.ext (holder (rtOf n) A r i) b = nz s.ext (holder (rtOf n) A r i) b := by
    intro r i b
    cases hA : holder (rtOf n) A r i with
    | none => rfl
    | some p =>
      rcases holder_some hA with ⟨-, g⟩ | ⟨-, -, g⟩
      · rw [← g]; exact hnz _ _ _
      · rw [← g]; exact hnz _ _ _
  have hroots : ∀ c ∈ rootCoords n, A' c.1 c.2 = A c.1 c.2 := by
    have e1 := h.ph.roots.node
    have e2 := h'.ph.roots.node
    rw [hc, List.map_append] at e2
    have e2 : nodes s' = _ := e2
    rw [hN] at e2
    have e3 := (List.append_inj e2 (by unfold nodes; rw [e1]; simp)).1
    have e3 : s.roots.map (fun r => r.e.node) = _ := e3
    rw [e1] at e3
    intro c hc
    exact (List.map_inj_left.1 e3 c hc).symm
  refine ⟨⟨h.ph.num, ?_, ?_, h.ph.roots, lt_of_lt_of_le h.ph.pos hs.2⟩, h.out⟩
  · refine ⟨?_, h.ph.shape.inj, ?_, ?_, h.ph.shape.root, ?_⟩
    · intro r y hr
      rw [h.ph.shape.kids r y hr, ← hh]
    · intro r i p hp
      have := h.ph.shape.bnd r i p hp
      exact ⟨this.1, lt_of_lt_of_le this.2 hs.2⟩
    · intro i
      have := h.ph.shape.leaf i
      rw [← hnz, ← hnz] at this
      exact this
    · obtain ⟨rk, g0, g1, g2⟩ := h'.ph.shape.rank
      refine ⟨rk, g0, ?_, g2⟩
      intro r i p hp
      refine h.rank_of hn hs g2 ?_ 64 r (by omega) i p hp
      intro c hc p hp
      exact g1 _ _ _ (by rw [hroots c hc]; exact hp)
  · intro r i p hp
    have := h.ph.hashed r i p hp
    rw [← hs.1 p (h.ph.shape.bnd _ _ _ hp).2] at this
    exact this

theorem copyRoots_nodes (n : ℕ) (leaves : List (Leaf H)) (targets : List ℕ) (roots : List PNode) :
    (copyRoots n leaves targets roots).map (fun r => r.e.node) = roots.map (fun r => r.e.node) ∧
    (copyRoots n leaves targets roots).map (fun r => r.e.sib) = roots.map (fun r => r.e.sib) ∧
    ((∀ r ∈ roots, r.up = []) → ∀ r ∈ copyRoots n leaves targets roots, r.up = []) := by
  unfold copyRoots
  split
  · split
    · rename_i r0 rest _ _
      refine ⟨rfl, rfl, ?_⟩
      intro h r hr
      rcases List.mem_cons.1 hr with rfl | hr
      · exact h r0 List.mem_cons_self
      · exact h _ (List.mem_cons_of_mem _ hr)
    · exact ⟨rfl, rfl, fun h => h⟩
  · exact ⟨rfl, rfl, fun h => h⟩

theorem few_same {s s' : Pollard H} {n : ℕ} {f : ℕ → H} {A : Addr} (h : Inv s n f A) {leaves : List (Leaf H)} {t : ℕ} (hd : 2 ^ t ∣ n)
    (hk : leaves.length < 2 ^ t) (hn : n + leaves.length ≤ 2 ^ 62) (hm : modify s leaves [] = .ok (true, s')) :
    Same s.ext.length s.ext s'.ext ∧ (∃ S, nodes s' = nodes s ++ S) ∧ ∃ f' A', Inv s' (n + leaves.length) f' A' := by
  have hm : (Acc.add vt s leaves >>= fun s2 => (pure (true, s2) : Res (Bool × Pollard H))) = .ok (true, s') := hm
  obtain ⟨s2, e1, e2⟩ := bind_eq_ok.1 hm
  clear hm
  obtain ⟨-, rfl⟩ := Prod.mk.inj (Except.ok.inj e2)
  obtain ⟨s3, A', e3, h', -⟩ := add_ok leaves s n f A h hn
  rw [e1] at e3
  obtain rfl := Except.ok.inj e3
  have hN : (nodes s).length = (treeRows n 64).length := by
    have := congrArg List.length h.ph.roots.node
    unfold rootCoords at this
    unfold nodes
    simpa using this
  obtain ⟨S, k1, -, k3⟩ := add_same (B := s.ext.length) hd hN leaves s s2 0 f A [] h (by omega) (by omega) (by simp) (le_refl _)
    (fun _ ho => by cases ho) e1
  exact ⟨k3, ⟨S, k1⟩, _, A', h'⟩

/-- A copy after leaves were added to the other one that are too few to be merged with an old tree: the objects, hashes, flags of the
copy are those of before. -/
theorem copy_add {s s' : Pollard H} {n : ℕ} {f : ℕ → H} {A : Addr} (h : Inv s n f A) {leaves : List (Leaf H)} {t : ℕ} (hd : 2 ^ t ∣ n)
    (hk : leaves.length < 2 ^ t) (hn : n + leaves.length ≤ 2 ^ 62) (hm : modify s leaves [] = .ok (true, s')) :
    Inv (copyAfterModify leaves [] s s') n f A ∧
    ∀ r i b, nz (copyAfterModify leaves [] s s').ext (holder (rtOf n) A r i) b = nz s.ext (holder (rtOf n) A r i) b := by
  obtain ⟨k3, ⟨S, k1⟩, f', A', h'⟩ := few_same h hd hk hn hm
  obtain ⟨cs, hc⟩ := rootCoords_split hd hk
  have hI := h.beside h' (by omega) k3 k1 hc
  obtain ⟨c1, c2, c3⟩ := copyRoots_nodes s.numLeaves leaves [] s.roots
  refine ⟨⟨⟨hI.ph.num, hI.ph.shape, hI.ph.hashed, ?_, hI.ph.pos⟩, hI.out⟩, ?_⟩
  · exact hI.ph.roots.mapPos c1 c2 (c3 h.ph.roots.up)
  · intro r i b
    cases hA : holder (rtOf n) A r i with
    | none => rfl
    | some p =>
      rcases holder_some hA with ⟨-, g⟩ | ⟨-, -, g⟩
      · exact nz_same k3 (h.ph.shape.bnd _ _ _ g).2
      · exact nz_same k3 (h.ph.shape.bnd _ _ _ g).2

theorem Sparse.same {heap heap' : List (INode H)} {n : ℕ} {A : Addr} (h : Sparse heap n A)
    (hh : ∀ r i b, nz heap' (holder (rtOf n) A r i) b = nz heap (holder (rtOf n) A r i) b) : Sparse heap' n A := by
  have e : kidc heap' (rtOf n) A = kidc heap (rtOf n) A := by
    funext q x
    cases q with
    | zero => simp only [kidc, hh]
    | succ q => rfl
  unfold Sparse
  rw [e]
  exact h

/-- References from objects below `B` stay below `B`. -/
def Closed (B : ℕ) (heap : List (INode H)) : Prop := ∀ p b k, p < B → b < 2 → nz heap (some p) b = some k → k < B

theorem Inv.closed {s : Pollard H} {n : ℕ} {f : ℕ → H} {A : Addr} (h : Inv s n f A) : Closed s.ext.length s.ext := by
  obtain ⟨rk, -, -, g⟩ := h.ph.shape.rank
  exact fun p b k _ hb hk => (g p b k hb hk).1

theorem readLoop_same {B : ℕ} {heap heap' : List (INode H)} (hs : Same B heap heap') (hc : Closed B heap) (n bits : ℕ) :
    ∀ (k : ℕ) (node sib : Option ℕ) (pos : ℕ) (path : List PEntry), (∀ p, node = some p → p < B) → (∀ p, sib = some p → p < B) →
      readLoop heap' n bits k node sib pos path = readLoop heap n bits k node sib pos path ∧
      ∀ r, readLoop heap n bits k node sib pos path = .ok r → ∀ p, r.1 = some p → p < B := by
  intro k
  induction k with
  | zero =>
    intro node sib pos path h1 h2
    refine ⟨rfl, fun r hr => ?_⟩
    obtain rfl := Except.ok.inj hr
    exact h1
  | succ k ih =>
    intro node sib pos path h1 h2
    unfold readLoop
    cases hb : shr64 bits (k : Int) with
    | error e => exact ⟨rfl, fun r hr => by cases hr⟩
    | ok b =>
      simp only [ok_bind]
      cases sib with
      | none =>
        refine ⟨rfl, fun r hr p hp => ?_⟩
        obtain rfl := Except.ok.inj hr
        cases hp
      | some sp =>
        have hsp := h2 sp rfl
        simp only []
        have e : vecGet heap' sp = vecGet heap sp := by unfold vecGet; rw [hs.1 sp hsp]
        rw [e]
        cases hx : vecGet heap sp with
        | error e => exact ⟨rfl, fun r hr => by cases hr⟩
        | ok x =>
          simp only [ok_bind]
          have hx' : heap[sp]? = some x := by
            unfold vecGet at hx
            split at hx
            · rename_i y hy
              rw [hy, Except.ok.inj hx]
            · cases hx
          cases hp : St.child n pos (St.sibling (b % 2)) with
          | error e => exact ⟨rfl, fun r hr => by cases hr⟩
          | ok pos' =>
            simp only [ok_bind]
            have hn : ∀ b p, INode.niece x b = some p → p < B := by
              intro b p hp
              by_cases h0 : b = 0
              · subst h0
                exact hc sp 0 p hsp (by omega) (by rw [nz_some hx']; exact hp)
              · refine hc sp 1 p hsp (by omega) ?_
                rw [nz_some hx', ← hp]
                unfold INode.niece
                rw [if_neg (by omega), if_neg h0]
            exact ih _ _ _ _ (hn _) (hn _)

theorem read_same {s s' : Pollard H} {n : ℕ} {f : ℕ → H} {A : Addr} (h : Inv s n f A) (h1 : s'.numLeaves = s.numLeaves)
    (h2 : nodes s' = nodes s) (h3 : Same s.ext.length s.ext s'.ext) (pos : ℕ) : read s' pos = read s pos := by
  have hr : ∀ (i : ℕ) (r : PNode), s.roots[i]? = some r → ∀ p, r.e.node = some p → p < s.ext.length := by
    intro i r hr p hp
    have e := congrArg (·[i]?) h.ph.roots.node
    simp only [List.getElem?_map, hr, Option.map_some] at e
    cases hc : (rootCoords n)[i]? with
    | none => rw [hc] at e; simp at e
    | some c =>
      rw [hc, hp] at e
      exact (h.ph.shape.bnd c.1 c.2 p (by simpa using e.symm)).2
  unfold read readSiblings
  rw [h1]
  cases e1 : St.path s.numLeaves pos with
  | error e => rfl
  | ok x =>
    obtain ⟨tree, len, bits⟩ := x
    simp only [ok_bind]
    cases e2 : St.rootPositions s.numLeaves with
    | error e => rfl
    | ok ps =>
      simp only [ok_bind]
      cases e3 : vecGet ps tree with
      | error e => rfl
      | ok np =>
        simp only [ok_bind]
        have eq : (s'.roots[tree]?).map (fun r => r.e.node) = (s.roots[tree]?).map (fun r => r.e.node) := by
          have := congrArg (·[tree]?) h2
          unfold nodes at this
          simpa only [List.getElem?_map] using this
        cases e4 : s.roots[tree]? with
        | none =>
          rw [e4] at eq
          have e5 : s'.roots[tree]? = none := by simpa using eq
          unfold vecGet
          rw [e4, e5]
          rfl
        | some r =>
          rw [e4] at eq
          obtain ⟨r', e5, e6⟩ : ∃ r', s'.roots[tree]? = some r' ∧ r'.e.node = r.e.node := by
            cases e5 : s'.roots[tree]? with
            | none => rw [e5] at eq; simp at eq
            | some r' => rw [e5] at eq; exact ⟨r', rfl, by simpa using eq⟩
          rw [vecGet_ok e4, vecGet_ok e5, ok_bind, ok_bind, e6]
          have hv : ∀ p, p < s.ext.length → vecGet s'.ext p = vecGet s.ext p := by
            intro p hp
            unfold vecGet
            rw [h3.1 p hp]
          by_cases hl : len = 0
          · rw [if_pos hl, if_pos hl]
            simp only [pure_ok, ok_bind]
            cases hn : r.e.node with
            | none => rfl
            | some p => simp only [hv p (hr _ _ e4 p hn)]
          · rw [if_neg hl, if_neg hl]
            obtain ⟨k1, k2⟩ := readLoop_same h3 h.closed s.numLeaves bits len r.e.node r.e.node np [] (hr _ _ e4) (hr _ _ e4)
            rw [k1]
            cases hq : readLoop s.ext s.numLeaves bits len r.e.node r.e.node np [] with
            | error e => rfl
            | ok x =>
              obtain ⟨nd, y, z⟩ := x
              simp only [ok_bind]
              cases nd with
              | none => rfl
              | some p => simp only [hv p (k2 _ hq p rfl)]

end Pol
end Utreexo
