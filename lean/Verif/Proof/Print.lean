import Verif.Spec.Print
import Verif.Model.Print
import Verif.Proof.RamAdd
import Verif.Proof.Unique
import Verif.Props.State

/-! # Positions stored in the roots -/

set_option linter.unusedSectionVars false

namespace Utreexo
open Spec Equiv

variable {H : Type} [DecidableEq H] [HashOps H]

theorem rowsOf_eq {n : ℕ} (hn : n ≤ 2 ^ 62) : rowsOf n = St.numRows n := by
  apply le_antisymm
  · exact (Nat.clog_le_iff_le_pow (by omega)).2 (le_two_pow_numRows (by omega))
  · exact (numRows_le_iff (by omega) _).2 (Nat.le_pow_clog (by omega) n)

theorem rowsOf_le_iff {n r : ℕ} : rowsOf n ≤ r ↔ n ≤ 2 ^ r := Nat.clog_le_iff_le_pow (by omega)

theorem rowsOf_mono {m n : ℕ} (h : m ≤ n) : rowsOf m ≤ rowsOf n :=
  rowsOf_le_iff.2 (le_trans h (rowsOf_le_iff.1 le_rfl))

theorem rowsOf_eq_zero {n : ℕ} : rowsOf n = 0 ↔ n ≤ 1 := by
  rw [← Nat.le_zero, rowsOf_le_iff, pow_zero]

theorem shown_congr {m m' : Marks} {n : ℕ} (h : ∀ t ∈ treeRows n 64, m t = m' t) : m.shown n = m'.shown n := by
  unfold Marks.shown
  apply List.map_congr_left
  intro t ht
  rw [h t ht]

/-- The marks after adding one leaf. -/
def Marks.one (m : Marks) (n : ℕ) : Marks := fun h =>
  if rowsOf n ≠ 0 ∧ rowsOf n < rowsOf (n + 1) then rowsOf (n + 1)
  else if n + 1 ≤ (n + 1) / 2 ^ h * 2 ^ h then rowsOf n else m h

/-- A state shows the roots with these marks. -/
def Acc.ShownAs {N X : Type} (vt : VT H N X) (s : Acc H N X) (m : Marks) : Prop := s.roots.map vt.nodePos = m.shown s.numLeaves

namespace Acc
variable {N X : Type}

/-- What the virtual functions do with the positions of the roots. -/
structure Places (vt : VT H N X) : Prop where
  leaf : ∀ s l, After (vt.newLeaf s l) fun r => vt.nodePos r.1 = s.numLeaves ∧ r.2.numLeaves = s.numLeaves ∧
    r.2.roots.map vt.nodePos = s.roots.map vt.nodePos ++ [s.numLeaves]
  merge : ∀ s p h, After (vt.mergeRoot s p h) fun r => vt.nodePos r.1 = p ∧ r.2.numLeaves = s.numLeaves ∧
    r.2.roots.map vt.nodePos = (s.roots.map vt.nodePos).dropLast.dropLast ++ [p]
  set : ∀ d p, vt.nodePos (vt.nodeSetPos d p) = p
  swap : ∀ s a b, After (vt.swapSubTrees s a b) fun r => r.2.numLeaves = s.numLeaves
  rehash : ∀ s d, After (vt.nodeReHash s d) fun r => r.numLeaves = s.numLeaves
  final : ∀ s k, After (vt.finalizeRemove s k) fun r => St.rootPositionsOf s.numLeaves k = .ok (r.roots.map vt.nodePos)

variable {vt : VT H N X}

theorem mergeLoop_places (P : Places vt) {n : ℕ} (hn : n < 2 ^ 62) {t : ℕ} (ht : t < 64)
    (hbits : ∀ p, p < t → n.testBit p = true) (hz : n.testBit t = false) (m : Marks) :
    ∀ (k r fuel : ℕ) (root : ℤ) (s : Acc H N X) (nr : N), r + k = t → s.numLeaves = n →
    vt.nodePos nr = posOf (St.numRows n) r (n / 2 ^ r) →
    s.roots.map vt.nodePos = ((rowsFrom n r).map fun q => posOf (m q) q (rootIdx n q)) ++ [posOf (St.numRows n) r (n / 2 ^ r)] →
    After (mergeLoop vt n fuel r root nr s) fun s' => s'.numLeaves = n ∧
      s'.roots.map vt.nodePos = ((rowsFrom n t).map fun q => posOf (m q) q (rootIdx n q)) ++ [posOf (St.numRows n) t (n / 2 ^ t)] := by
  have hn62 : n ≤ 2 ^ 62 := by omega
  have hR := numRows_le_62 hn62
  intro k
  induction k with
  | zero =>
    intro r fuel root s nr hk hs hp hr
    have : r = t := by omega
    subst this
    cases fuel with
    | zero => exact After.error
    | succ fuel =>
      rw [mergeLoop, hasRoot_eq ht, ok_bind, hz]
      exact After.pure ⟨hs, hr⟩
  | succ k ih =>
    intro r fuel root s nr hk hs hp hr
    cases fuel with
    | zero => exact After.error
    | succ fuel =>
      have hbr := hbits r (by omega)
      have hsplit := testBit_div (n := n) (t := r)
      rw [if_pos hbr] at hsplit
      obtain ⟨h1, h2⟩ := row_le hn62 (show 2 * (n / 2 ^ (r + 1)) < n / 2 ^ r by omega)
      have hnR : n ≤ 2 ^ St.numRows n := le_two_pow_numRows (by omega)
      have hlt : n / 2 ^ r < 2 ^ (St.numRows n + 1 - r) := by
        have : 2 ^ (St.numRows n + 1 - r) = 2 * 2 ^ (St.numRows n - r) := by
          rw [show St.numRows n + 1 - r = St.numRows n - r + 1 by omega, pow_succ]; ring
        omega
      rw [mergeLoop, hasRoot_eq (by omega), ok_bind, hbr, if_pos rfl, hp, parent_posOf (by omega) h1 hlt]
      refine After.seq fun l => After.seq fun lh => After.seq fun rh => ?_
      rw [ok_bind]
      refine After.bind (P.merge s _ _) fun x hx => ?_
      obtain ⟨x1, x2, x3⟩ := hx
      obtain ⟨nr', s'⟩ := x
      have e : n / 2 ^ r / 2 = n / 2 ^ (r + 1) := by rw [pow_succ, Nat.div_div_eq_div_mul]
      refine ih (r + 1) fuel (root - 1) s' nr' (by omega) (by rw [x2, hs]) (by rw [x1, e]) ?_
      rw [x3, hr, rowsFrom_bit (by omega) hbr, List.map_append, e]
      simp [List.dropLast_append_of_ne_nil]

theorem addOne_places (P : Places vt) {s s' : Acc H N X} {l : Leaf H} {m : Marks} (hn : s.numLeaves < 2 ^ 62)
    (hm : ShownAs vt s m) (h : addOne vt s l = .ok s') :
    s'.numLeaves = s.numLeaves + 1 ∧ ShownAs vt s' (Marks.one m s.numLeaves) := by
  generalize hs : s.numLeaves = n at hn hm ⊢
  unfold ShownAs at hm ⊢
  rw [hs] at hm
  have hn62 : n ≤ 2 ^ 62 := by omega
  have hR := numRows_le_62 hn62
  obtain ⟨t, ht, hbits, hz⟩ := exists_zero_bit (n := n) (by omega)
  unfold addOne at h
  obtain ⟨⟨nr, s1⟩, e1, h⟩ := bind_eq_ok.1 h
  obtain ⟨s2, e2, h⟩ := bind_eq_ok.1 h
  obtain ⟨p1, p2, p3⟩ := P.leaf s l _ e1
  simp only at p1 p2 p3 e2 h
  rw [hs] at p1 p2 p3 e2 h
  obtain ⟨q1, q2⟩ := mergeLoop_places P hn ht hbits hz m t 0 66 _ s1 nr (by omega) p2 (by rw [p1]; simp [posOf_zero])
    (by rw [p3, hm, rowsFrom_zero]; simp [posOf_zero, Marks.shown]) _ e2
  rw [q1, wrap64_ok (by omega)] at h
  have hdiv := succ_div_of_bits t hbits
  have hbelow : ∀ q, t < q → (n + 1) / 2 ^ q = n / 2 ^ q := fun q hq => succ_div_above hbits hz hq
  have hidx : ∀ q ∈ rowsFrom n t, t < q ∧ rootIdx (n + 1) q = rootIdx n q := by
    intro q hq
    obtain ⟨a1, a2, a3⟩ := mem_rowsFrom.1 hq
    have : t < q := by
      rcases Nat.lt_or_eq_of_le a1 with g | g
      · exact g
      · subst g; rw [hz] at a3; simp at a3
    exact ⟨this, by rw [rootIdx_le, rootIdx_le, hbelow _ (by omega)]⟩
  have hidxt : rootIdx (n + 1) t = n / 2 ^ t := by
    have h2 := testBit_div (n := n) (t := t)
    rw [hz] at h2
    rw [rootIdx_le, hbelow _ (by omega), h2]; simp
  have hend : n + 1 ≤ (n + 1) / 2 ^ t * 2 ^ t := by
    have a1 : (n + 1) % 2 ^ t = 0 := by
      apply Nat.eq_of_testBit_eq
      intro i
      rw [Nat.testBit_mod_two_pow, succ_testBit hbits hz, Nat.zero_testBit]
      by_cases hi : i < t
      · simp [hi]
      · simp [hi]
    have := Nat.div_add_mod (n + 1) (2 ^ t)
    rw [a1, mul_comm] at this
    omega
  have hnend : ∀ q, t < q → ¬ n + 1 ≤ (n + 1) / 2 ^ q * 2 ^ q := by
    intro q hq hc
    rw [hbelow q hq] at hc
    have := Nat.div_mul_le_self n (2 ^ q)
    omega
  by_cases hgrow : St.numRows n = 0 ∨ St.numRows n = St.numRows (n + 1)
  · rw [if_pos hgrow] at h
    simp only [pure_ok, Except.ok.injEq] at h
    subst h
    refine ⟨rfl, ?_⟩
    show s2.roots.map vt.nodePos = _
    rw [q2]
    have hng : ¬ (rowsOf n ≠ 0 ∧ rowsOf n < rowsOf (n + 1)) := by
      rw [rowsOf_eq hn62, rowsOf_eq (by omega)]; omega
    unfold Marks.shown
    rw [treeRows_succ ht hbits hz, List.map_append, List.map_singleton]
    congr 1
    · apply List.map_congr_left
      intro q hq
      obtain ⟨a1, a2⟩ := hidx q hq
      unfold Marks.one
      rw [if_neg hng, if_neg (hnend q a1), a2]
    · unfold Marks.one
      rw [if_neg hng, if_pos hend, hidxt, rowsOf_eq hn62]
  · rw [if_neg hgrow] at h
    push Not at hgrow
    obtain ⟨g1, g2⟩ := hgrow
    have hnR : n ≤ 2 ^ St.numRows n := le_two_pow_numRows (by omega)
    have hfull : n = 2 ^ St.numRows n := by
      by_contra hne
      apply g2
      have h1 : St.numRows (n + 1) ≤ St.numRows n := (numRows_le_iff (by omega) _).2 (by omega)
      have h2 : St.numRows n ≤ St.numRows (n + 1) :=
        (numRows_le_iff (by omega) _).2 (le_trans (by omega) (le_two_pow_numRows (n := n + 1) (by omega)))
      omega
    have hup : St.numRows (n + 1) = St.numRows n + 1 := by
      have h1 : St.numRows (n + 1) ≤ St.numRows n + 1 := (numRows_le_iff (by omega) _).2 (by
        rw [pow_succ, ← hfull]; have := Nat.one_le_two_pow (n := St.numRows n); omega)
      have h2 : St.numRows n ≤ St.numRows (n + 1) :=
        (numRows_le_iff (by omega) _).2 (le_trans (by omega) (le_two_pow_numRows (n := n + 1) (by omega)))
      omega
    have ht0 : t = 0 := by
      by_contra hne
      have := hbits 0 (by omega)
      rw [hfull, Nat.testBit_two_pow] at this; simp at this; omega
    subst ht0
    -- the two trees
    have hrows : rowsFrom n 0 = [St.numRows n] := by
      apply sorted_gt_ext (rowsFrom_sorted _ _) (by simp)
      intro x
      rw [mem_rowsFrom, List.mem_singleton]
      rw [show n.testBit x = decide (St.numRows n = x) by rw [hfull, Nat.testBit_two_pow, ← hfull]]
      simp
      constructor
      · rintro ⟨-, rfl⟩; rfl
      · rintro rfl; exact ⟨by omega, rfl⟩
    rw [hrows] at q2
    have hgrow' : rowsOf n ≠ 0 ∧ rowsOf n < rowsOf (n + 1) := by
      rw [rowsOf_eq hn62, rowsOf_eq (by omega)]; omega
    cases hrs : s2.roots with
    | nil => rw [hrs] at q2; simp at q2
    | cons r0 l1 =>
      cases l1 with
      | nil => rw [hrs] at q2; simp at q2
      | cons r1 rest =>
        rw [hrs] at q2 h
        simp only [] at h
        have hrest : rest = [] := by
          have := congrArg List.length q2
          simp at this; exact this
        subst hrest
        rw [rootPosition_eq (n := n + 1) (by omega) (Nat.zero_le _), ok_bind,
          rootPosition_eq (n := n + 1) (by omega) (by omega), ok_bind] at h
        simp only [pure_ok, Except.ok.injEq] at h
        subst h
        refine ⟨rfl, ?_⟩
        show [vt.nodePos (vt.nodeSetPos r0 _), vt.nodePos (vt.nodeSetPos r1 _)] = _
        rw [P.set, P.set]
        unfold Marks.shown
        rw [treeRows_succ ht hbits hz, hrows]
        simp only [List.map_append, List.map_cons, List.map_nil, List.cons_append, List.nil_append]
        unfold Marks.one
        rw [if_pos hgrow', if_pos hgrow', rowsOf_eq (n := n + 1) (by omega), hup, Nat.add_sub_cancel]

/-- The marks after adding `a` leaves. -/
def _root_.Utreexo.Marks.more (m : Marks) (n a : ℕ) : Marks := fun h =>
  if rowsOf n < rowsOf (n + a) ∨ n < (n + a) / 2 ^ h * 2 ^ h then if n + a = 2 then 0 else rowsOf (n + a) else m h

theorem more_one (m : Marks) (n a : ℕ) : (Marks.one (Marks.more m n a) (n + a)).shown (n + a + 1) = (Marks.more m n (a + 1)).shown (n + (a + 1)) := by
  apply shown_congr
  intro h hh
  have hb := (mem_treeRows.1 hh).2
  unfold Marks.one Marks.more
  rw [show n + (a + 1) = n + a + 1 by omega]
  generalize ht : n + a = t
  rw [ht] at hb
  have hm1 := rowsOf_mono (show n ≤ t by omega)
  have hm2 := rowsOf_mono (show t ≤ t + 1 by omega)
  have hz : ∀ x, rowsOf x = 0 ↔ x ≤ 1 := fun x => rowsOf_eq_zero
  by_cases hg : rowsOf t ≠ 0 ∧ rowsOf t < rowsOf (t + 1)
  · have h2 := hg.1
    rw [if_pos hg, if_pos (.inl (by omega)), if_neg]
    rw [Ne, hz] at h2; omega
  · rw [if_neg hg]
    by_cases he : t + 1 ≤ (t + 1) / 2 ^ h * 2 ^ h
    · rw [if_pos he, if_pos (.inr (by omega))]
      split
      · rw [hz]; omega
      · by_cases h0 : rowsOf t = 0
        · rw [hz] at h0
          rw [(hz t).2 h0, (hz (t + 1)).2 (by omega)]
        · omega
    · rw [if_neg he]
      -- an old tree
      have hdiv : (t + 1) / 2 ^ h = t / 2 ^ h := by
        have h1 := Nat.succ_div (a := t) (b := 2 ^ h)
        rw [h1, if_neg, Nat.add_zero]
        intro hd
        apply he
        rw [Nat.div_mul_cancel hd]
      have ht2 : 2 ≤ t := by
        by_contra hc
        apply he
        have : t = 0 ∨ t = 1 := by omega
        rcases this with rfl | rfl
        · have : h = 0 := by
            by_contra hc
            rw [Nat.testBit_eq_decide_div_mod_eq, Nat.div_eq_of_lt (by have := Nat.one_lt_two_pow hc; omega)] at hb
            simp at hb
          subst this; simp
        · have : h = 1 := by
            have h2 : (2 : ℕ).testBit h = decide (1 = h) := Nat.testBit_two_pow (n := 1)
            rw [show 1 + 1 = 2 from rfl, h2] at hb
            exact (of_decide_eq_true hb).symm
          subst this; simp
      have ht0 : rowsOf t ≠ 0 := by rw [Ne, hz]; omega
      have heq : rowsOf (t + 1) = rowsOf t := by
        have : ¬ rowsOf t < rowsOf (t + 1) := fun hc => hg ⟨ht0, hc⟩
        omega
      have ht3 : t ≠ 2 := by
        rintro rfl
        have a1 : rowsOf 2 ≤ 1 := rowsOf_le_iff.2 (by omega)
        have a2 : ¬ rowsOf (2 + 1) ≤ 1 := by rw [rowsOf_le_iff]; omega
        omega
      rw [hdiv, heq, if_neg ht3, if_neg (show t + 1 ≠ 2 by omega)]

theorem more_zero (m : Marks) (n : ℕ) : (Marks.more m n 0).shown n = m.shown n := by
  apply shown_congr
  intro h _
  unfold Marks.more
  rw [if_neg]
  rw [Nat.add_zero]
  have := Nat.div_mul_le_self n (2 ^ h)
  omega

theorem one_congr {m m' : Marks} {n : ℕ} (h : ∀ t ∈ treeRows n 64, m t = m' t) :
    ∀ t ∈ treeRows (n + 1) 64, Marks.one m n t = Marks.one m' n t := by
  intro t ht
  unfold Marks.one
  split
  · rfl
  · split
    · rfl
    · rename_i he
      apply h
      rw [mem_treeRows] at ht ⊢
      refine ⟨ht.1, ?_⟩
      have hdiv : (n + 1) / 2 ^ t = n / 2 ^ t := by
        have h1 := Nat.succ_div (a := n) (b := 2 ^ t)
        rw [h1, if_neg, Nat.add_zero]
        intro hd
        apply he
        rw [Nat.div_mul_cancel hd]
      rw [← testBit_of_div hdiv]; exact ht.2

theorem addAll_places (P : Places vt) {m : Marks} {n : ℕ} : ∀ (leaves : List (Leaf H)) (a : ℕ) (s s' : Acc H N X),
    s.numLeaves = n + a → n + a + leaves.length ≤ 2 ^ 62 → ShownAs vt s (Marks.more m n a) → add vt s leaves = .ok s' →
    s'.numLeaves = n + (a + leaves.length) ∧ ShownAs vt s' (Marks.more m n (a + leaves.length)) := by
  intro leaves
  induction leaves with
  | nil =>
    intro a s s' hs _ hm h
    simp only [add, List.foldlM_nil, pure_ok, Except.ok.injEq] at h
    subst h
    exact ⟨hs, hm⟩
  | cons l ls ih =>
    intro a s s' hs hn hm h
    rw [List.length_cons] at hn ⊢
    rw [add, List.foldlM_cons] at h
    obtain ⟨s1, e1, h⟩ := bind_eq_ok.1 h
    obtain ⟨h1, h2⟩ := addOne_places P (by omega) hm e1
    obtain ⟨h3, h4⟩ := ih (a + 1) s1 s' (by omega) (by omega) (by
      unfold ShownAs at h2 ⊢
      rw [h2, h1, hs, more_one, Nat.add_assoc]) h
    rw [show a + 1 + ls.length = a + (ls.length + 1) by omega] at h3 h4
    exact ⟨h3, h4⟩

theorem add_places (P : Places vt) {m : Marks} {leaves : List (Leaf H)} {s s' : Acc H N X}
    (hn : s.numLeaves + leaves.length ≤ 2 ^ 62) (hm : ShownAs vt s m) (h : add vt s leaves = .ok s') :
    s'.numLeaves = s.numLeaves + leaves.length ∧ ShownAs vt s' (Marks.more m s.numLeaves leaves.length) := by
  obtain ⟨h1, h2⟩ := addAll_places P (n := s.numLeaves) leaves 0 s s' rfl (by omega) (by
    unfold ShownAs at hm ⊢
    rw [hm, more_zero]) h
  rw [Nat.zero_add] at h1 h2
  exact ⟨h1, h2⟩

/-! ## Deleting -/

theorem runSwaps_places (P : Places vt) : ∀ (sws : List St.Swap) (s : Acc H N X) (dirty : List (Option N)),
    After (runSwaps vt sws s dirty) fun r => r.1.numLeaves = s.numLeaves := by
  intro sws
  induction sws with
  | nil => intro s dirty; exact After.ok rfl
  | cons sw sws ih =>
    intro s dirty
    rw [runSwaps]
    refine After.bind (Q := fun r => r.numLeaves = s.numLeaves) ?_ fun s1 h1 =>
      After.bind (P.swap s1 sw.src sw.dst) fun r h2 => ?_
    · unfold updatePosSubtree
      refine After.seq fun _ => After.seq fun _ => After.seq fun _ => After.seq fun _ => ?_
      unfold updatePosRange
      split
      · exact After.ok rfl
      · exact After.seq fun _ => After.seq fun _ => After.pure rfl
    · rw [← h1, ← h2]
      exact ih _ _

theorem rehashDirty_places (P : Places vt) (cs : ℕ) : ∀ (ds : List (Option N)) (s : Acc H N X) (next : List N),
    After (rehashDirty vt cs ds s next) fun r => r.1.numLeaves = s.numLeaves := by
  intro ds
  induction ds with
  | nil => intro s next; exact After.ok rfl
  | cons d ds ih =>
    intro s next
    cases d with
    | none => exact After.error
    | some d =>
      rw [rehashDirty]
      refine After.bind (P.rehash s d) fun s1 h1 => ?_
      rw [← h1]
      have key : ∀ push : Bool, After
          (if push = true then do
            match ← vt.nodeParent s1 d with
            | some p => rehashDirty vt cs ds s1 (next ++ [p])
            | none => rehashDirty vt cs ds s1 next
          else rehashDirty vt cs ds s1 next) fun r => r.1.numLeaves = s1.numLeaves := by
        intro push
        split
        · refine After.seq fun p => ?_
          cases p with
          | none => exact ih _ _
          | some p => exact ih _ _
        · exact ih _ _
      dsimp only
      split
      · exact After.seq fun push => key push
      · exact After.seq fun _ => After.seq fun push => key push

theorem removeRows_places (P : Places vt) (cs : ℕ) : ∀ (k : ℕ) (sws : List (List St.Swap)) (s : Acc H N X) (dirty : List N),
    After (removeRows vt cs k sws s dirty) fun r => r.1.numLeaves = s.numLeaves := by
  intro k
  induction k with
  | zero => intro _ s _; exact After.ok rfl
  | succ k ih =>
    intro sws s dirty
    rw [removeRows]
    refine After.bind (runSwaps_places P _ s _) fun r1 h1 => After.bind (rehashDirty_places P cs _ r1.1 _) fun r2 h2 => ?_
    rw [← h1, ← h2]
    exact ih _ _ _

theorem remove_places (P : Places vt) {m : Marks} {targets : List ℕ} {s s' : Acc H N X} (hn : s.numLeaves ≤ 2 ^ 62)
    (hm : ShownAs vt s m) (h : remove vt s targets = .ok (true, s')) :
    targets.length ≤ s.numLeaves ∧ s'.numLeaves = s.numLeaves - targets.length ∧
      ShownAs vt s' (if 0 < targets.length then Marks.now s.numLeaves else m) := by
  unfold remove at h
  by_cases ht : targets.length = 0
  · rw [if_pos ht] at h
    simp only [Except.ok.injEq, Prod.mk.injEq, true_and] at h
    subst h
    rw [ht, if_neg (by omega)]
    exact ⟨by omega, rfl, hm⟩
  · rw [if_neg ht] at h
    obtain ⟨b, hb1, hb2⟩ := C07_checkTargetsSanity s.numLeaves targets
    simp only [] at h
    rw [hb1, ok_bind] at h
    cases b with
    | false => simp at h
    | true =>
      obtain ⟨hs1, hs2⟩ := hb2.1 rfl
      have hlen : targets.length ≤ s.numLeaves := by
        have := sorted_length_add_le targets 0 s.numLeaves hs1 (fun x hx => ⟨Nat.zero_le _, hs2 x hx⟩) (Nat.zero_le _)
        omega
      simp only [Bool.not_true, Bool.false_eq_true, if_false] at h
      obtain ⟨sw, -, h⟩ := bind_eq_ok.1 h
      obtain ⟨⟨s1, dirty⟩, e1, h⟩ := bind_eq_ok.1 h
      obtain ⟨_, -, h⟩ := bind_eq_ok.1 h
      obtain ⟨s2, e2, h⟩ := bind_eq_ok.1 h
      simp only [pure_ok, Except.ok.injEq, Prod.mk.injEq, true_and] at h
      have h1 := removeRows_places P _ _ _ _ _ _ e1
      simp only at h1 e2 h
      have h2 := P.final _ _ _ e2
      rw [h1] at h2 h
      rw [sub64_ok (by omega) (by omega)] at h2 h
      subst h
      refine ⟨hlen, rfl, ?_⟩
      rw [rootPositionsOf_eq hn (by omega), Ram.treeRows_eq hn (by omega)] at h2
      rw [if_pos (by omega)]
      unfold ShownAs Marks.shown Marks.now
      simp only [Except.ok.injEq] at h2
      show s2.roots.map vt.nodePos = _
      rw [← h2, rowsOf_eq hn]

theorem block_eq (m : Marks) (n k a : ℕ) : Marks.more (if 0 < k then Marks.now n else m) (n - k) a = m.block n k a := by
  funext h
  unfold Marks.more Marks.block
  split
  · rfl
  · split
    · rfl
    · rfl

end Acc
end Utreexo
