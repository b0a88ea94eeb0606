import Verif.Proof.SelfCheck
import Verif.Proof.RamUndo

/-! # The self-checks of a forest -/

set_option linter.unusedSectionVars false

namespace Utreexo
open Spec Equiv

variable {H : Type} [DecidableEq H] [HashOps H]

namespace Ram

theorem parent_ge {n pos : ℕ} (hn : n ≤ 2 ^ 62) : After (St.parent n pos) fun p => n ≤ p := by
  have hR := numRows_le_62 hn
  have hnR : n ≤ 2 ^ St.numRows n := le_two_pow_numRows (by omega)
  unfold St.parent
  rw [shl64_ok (by omega), ok_bind]
  refine After.pure ?_
  have e : 1 * 2 ^ St.numRows n % 2 ^ 64 = 2 ^ St.numRows n := by
    rw [one_mul]; exact Nat.mod_eq_of_lt (Nat.pow_lt_pow_right (by omega) (by omega))
  rw [e]
  exact le_trans hnR Nat.right_le_or

theorem nodeParent_ge {n : ℕ} (hn : n ≤ 2 ^ 62) (s : RamForest H) (d : RNode H) (h : d.numLeaves = n) :
    After (nodeParent s d) fun r => ∀ p, r = some p → p.numLeaves = n ∧ n ≤ p.pos := by
  unfold nodeParent
  rw [h]
  refine After.bind (parent_ge hn) fun p hp => After.seq fun _ => After.seq fun _ => After.seq fun _ => ?_
  split
  · exact After.pure (by simp)
  · refine After.pure ?_
    intro q hq
    injection hq with hq
    subst hq
    exact ⟨rfl, hp⟩

theorem swapRange_num (s : RamForest H) (a b k : ℕ) : After (swapRange s a b k) fun r => r.numLeaves = s.numLeaves := by
  unfold swapRange
  exact After.seq fun _ => After.seq fun _ => After.seq fun _ => After.seq fun _ => After.seq fun _ => After.pure rfl

theorem swapTreeLoop_ge {n : ℕ} (hn : n ≤ 2 ^ 62) : ∀ (fuel range : ℕ) (s : RamForest H) (a b : ℕ), s.numLeaves = n →
    range ≠ 0 ∨ n ≤ b → After (swapTreeLoop s a b fuel range) fun r => r.1.numLeaves = n ∧ n ≤ r.2 := by
  intro fuel
  induction fuel with
  | zero => intro _ _ _ _ _ _; exact After.error
  | succ fuel ih =>
    intro range s a b hs hb
    rw [swapTreeLoop]
    split
    · refine After.ok ⟨hs, ?_⟩
      rcases hb with h | h
      · contradiction
      · exact h
    · refine After.bind (swapRange_num s a b range) fun s1 h1 => After.seq fun a' => ?_
      rw [hs] at h1 ⊢
      exact After.bind (parent_ge hn) fun b' h2 => ih _ _ _ _ h1 (Or.inr h2)

theorem swapSubTrees_ge {n : ℕ} (hn : n ≤ 2 ^ 62) (s : RamForest H) (a b : ℕ) (hs : s.numLeaves = n) :
    After (swapSubTrees s a b) fun r => r.2.numLeaves = n ∧ ∀ d, r.1 = some d → d.numLeaves = n ∧ n ≤ d.pos := by
  unfold swapSubTrees
  refine After.seq fun row => After.seq fun _ => After.seq fun _ => After.seq fun _ => After.seq fun _ => ?_
  unfold shlInt
  split
  · rw [ok_bind]
    refine After.bind (swapTreeLoop_ge hn 66 _ s _ _ hs (Or.inl ?_)) fun r h => After.pure ⟨h.1, ?_⟩
    · rw [Nat.one_shiftLeft]; positivity
    · intro d hd
      injection hd with hd
      subst hd
      exact ⟨hs, h.2⟩
  · exact After.error

theorem swapSubTreesV_sim (s : RamForest H) (a b : ℕ) : Sim (swapSubTreesV s a b) (swapSubTrees s a b) := by
  unfold swapSubTreesV swapSubTrees
  refine Sim.seq fun row h1 => Sim.seq fun row' h2 => Sim.seq fun _ h3 => ?_
  have e : row = row' := by
    by_contra hc
    simp [cassert, hc] at h3
  subst e
  rw [St.leftDescendantV_eq h1 le_rfl, St.leftDescendantV_eq h2 le_rfl]
  exact Sim.refl

theorem nodeReHashV_eq (s : RamForest H) (d : RNode H) (h : d.numLeaves ≤ d.pos) : nodeReHashV s d = nodeReHash s d := by
  unfold nodeReHashV nodeReHash
  rw [St.childV_eq h, St.childV_eq h]

theorem nodeReHash_num (s : RamForest H) (d : RNode H) : After (nodeReHash s d) fun r => r.numLeaves = s.numLeaves := by
  unfold nodeReHash
  exact After.seq fun _ => After.seq fun _ => After.seq fun _ => After.seq fun _ => After.seq fun _ => After.seq fun _ =>
    After.seq fun _ => After.seq fun _ => After.pure rfl

theorem agree {n : ℕ} (hn : n ≤ 2 ^ 62) :
    Acc.Agree (vtV : VT H (RNode H) (List (List H))) vt n fun d => d.numLeaves = n ∧ n ≤ d.pos where
  range := fun _ _ _ _ _ => Sim.refl
  swap := fun s sw _ _ => swapSubTreesV_sim s sw.src sw.dst
  swapG := fun s a b hs => swapSubTrees_ge hn s a b hs
  rehash := fun s d _ h => Sim.of_eq (nodeReHashV_eq s d (by rw [h.1]; exact h.2))
  rehashG := fun s d hs => by
    intro r hr
    rw [nodeReHash_num s d r hr, hs]
  pos := rfl
  parent := rfl
  parentG := fun s d h => nodeParent_ge hn s d h.1
  final := fun _ _ _ _ => Sim.refl

/-! ## Undo -/

/-- The bottom row has `k` hashes. -/
def RowLen (k : ℕ) (s : RamForest H) : Prop := ∀ row, s.ext[0]? = some row → row.length = k

theorem rowLen_set {k : ℕ} {s : RamForest H} (h : RowLen k s) {i : ℕ} {row row' : List H} (hi : s.ext[i]? = some row)
    (hl : i = 0 → row'.length = row.length) : RowLen k { s with ext := s.ext.set i row' } := by
  intro r hr
  simp only [List.getElem?_set] at hr
  split at hr
  · rename_i e
    subst e
    split at hr
    · injection hr with hr
      rw [← hr, hl rfl]
      exact h _ hi
    · cases hr
  · exact h r hr

theorem vecSet_len {α : Type} {v w : List α} {i : ℕ} {x : α} (h : vecSet v i x = .ok w) : w.length = v.length := by
  unfold vecSet at h
  split at h
  · injection h with h; rw [← h, List.length_set]
  · cases h

theorem vecAt_get {α : Type} {v : List α} {i : ℕ} {x : α} (h : vecAt v i = .ok x) : v[i]? = some x := by
  unfold vecAt at h
  split at h
  · rename_i e; injection h with h; rw [e, h]
  · cases h

theorem vecGet_get {α : Type} {v : List α} {i : ℕ} {x : α} (h : vecGet v i = .ok x) : v[i]? = some x := by
  unfold vecGet at h
  split at h
  · rename_i e; injection h with h; rw [e, h]
  · cases h

theorem swapLoop_len : ∀ (k : ℕ) (row : List H) (a b : ℕ), After (swapLoop row a b k) fun r => r.length = row.length := by
  intro k
  induction k with
  | zero => intro row a b; exact After.ok rfl
  | succ k ih =>
    intro row a b r hr
    rw [swapLoop] at hr
    obtain ⟨x, -, hr⟩ := bind_eq_ok.1 hr
    obtain ⟨y, -, hr⟩ := bind_eq_ok.1 hr
    obtain ⟨r1, h1, hr⟩ := bind_eq_ok.1 hr
    obtain ⟨r2, h2, hr⟩ := bind_eq_ok.1 hr
    rw [ih _ _ _ r hr, vecSet_len h2, vecSet_len h1]

theorem swapRange_len {k : ℕ} {s : RamForest H} (h : RowLen k s) (a b c : ℕ) : After (swapRange s a b c) (RowLen k) := by
  intro r hr
  unfold swapRange at hr
  obtain ⟨row, -, hr⟩ := bind_eq_ok.1 hr
  obtain ⟨_, -, hr⟩ := bind_eq_ok.1 hr
  obtain ⟨_, -, hr⟩ := bind_eq_ok.1 hr
  obtain ⟨d, h1, hr⟩ := bind_eq_ok.1 hr
  obtain ⟨d', h2, hr⟩ := bind_eq_ok.1 hr
  injection hr with hr
  rw [← hr]
  exact rowLen_set h (vecAt_get h1) fun _ => swapLoop_len _ _ _ _ _ h2

theorem updatePosRange_ext (s : RamForest H) (a b c : ℕ) : After (Acc.updatePosRange vt s a b c) fun r => r.ext = s.ext := by
  unfold Acc.updatePosRange
  split
  · exact After.ok rfl
  · exact After.seq fun _ => After.seq fun _ => After.pure rfl

theorem undoSwaps_len {k : ℕ} : ∀ (l : List St.Swap) (s : RamForest H), RowLen k s →
    After (undoSwaps l s) fun r => RowLen k r ∧ r.numLeaves = s.numLeaves := by
  intro l
  induction l with
  | nil => intro s h; exact After.ok ⟨h, rfl⟩
  | cons sw l ih =>
    intro s h
    rw [undoSwaps]
    intro r hr
    obtain ⟨s1, h1, hr⟩ := bind_eq_ok.1 hr
    obtain ⟨s2, h2, hr⟩ := bind_eq_ok.1 hr
    have l1 : RowLen k s1 := by
      unfold RowLen
      rw [updatePosRange_ext _ _ _ _ _ h1]
      exact h
    obtain ⟨g1, g2⟩ := ih s2 (swapRange_len l1 _ _ _ _ h2) r hr
    exact ⟨g1, by rw [g2, swapRange_num _ _ _ _ _ h2, Acc.updatePosRange_num _ _ _ _ _ h1]⟩

theorem nodeReHash_len {k : ℕ} {s : RamForest H} (h : RowLen k s) (d : RNode H) : After (nodeReHash s d) (RowLen k) := by
  intro r hr
  unfold nodeReHash at hr
  obtain ⟨_, -, hr⟩ := bind_eq_ok.1 hr
  obtain ⟨_, -, hr⟩ := bind_eq_ok.1 hr
  obtain ⟨_, -, hr⟩ := bind_eq_ok.1 hr
  obtain ⟨_, -, hr⟩ := bind_eq_ok.1 hr
  obtain ⟨row, -, hr⟩ := bind_eq_ok.1 hr
  obtain ⟨_, -, hr⟩ := bind_eq_ok.1 hr
  obtain ⟨d1, h1, hr⟩ := bind_eq_ok.1 hr
  obtain ⟨d2, h2, hr⟩ := bind_eq_ok.1 hr
  injection hr with hr
  rw [← hr]
  exact rowLen_set h (vecAt_get h1) fun _ => vecSet_len h2

theorem undoRehashRow_sim {n k : ℕ} (hn : n ≤ 2 ^ 62) : ∀ (ds : List (RNode H)) (s : RamForest H) (next : List (RNode H)),
    (∀ d ∈ ds, d.numLeaves = n ∧ n ≤ d.pos) → (∀ d ∈ next, d.numLeaves = n ∧ n ≤ d.pos) → RowLen k s → s.numLeaves = n →
    Sim (undoRehashRowV ds s next) (undoRehashRow ds s next) ∧
      After (undoRehashRow ds s next) fun r => RowLen k r.1 ∧ r.1.numLeaves = n ∧ ∀ d ∈ r.2, d.numLeaves = n ∧ n ≤ d.pos := by
  intro ds
  induction ds with
  | nil => intro s next _ h2 h3 h4; exact ⟨Sim.refl, After.ok ⟨h3, h4, h2⟩⟩
  | cons d ds ih =>
    intro s next h1 h2 h3 h4
    have h1' : ∀ d ∈ ds, d.numLeaves = n ∧ n ≤ d.pos := fun x hx => h1 x (List.mem_cons_of_mem _ hx)
    obtain ⟨d1, d2⟩ := h1 d (by simp)
    have hnext : ∀ (s1 : RamForest H) p, nodeParent s1 d = .ok (some p) → ∀ b : Bool,
        ∀ x ∈ (if b then next ++ [p] else next), x.numLeaves = n ∧ n ≤ x.pos := by
      intro s1 p e b x hx
      split at hx
      · rcases List.mem_append.1 hx with h | h
        · exact h2 x h
        · rw [List.mem_singleton.1 h]; exact nodeParent_ge hn s1 d d1 _ e p rfl
      · exact h2 x hx
    rw [undoRehashRowV, undoRehashRow, nodeReHashV_eq s d (by omega)]
    constructor
    · refine Sim.seq fun s1 e1 => Sim.seq fun r e2 => ?_
      have l1 := nodeReHash_len h3 d s1 e1
      have n1 : s1.numLeaves = n := by rw [nodeReHash_num s d s1 e1, h4]
      cases r with
      | none => exact (ih s1 next h1' h2 l1 n1).1
      | some p => exact (ih s1 _ h1' (hnext s1 p e2 _) l1 n1).1
    · intro a ha
      obtain ⟨s1, e1, ha⟩ := bind_eq_ok.1 ha
      obtain ⟨r, e2, ha⟩ := bind_eq_ok.1 ha
      have l1 := nodeReHash_len h3 d s1 e1
      have n1 : s1.numLeaves = n := by rw [nodeReHash_num s d s1 e1, h4]
      cases r with
      | none => exact (ih s1 next h1' h2 l1 n1).2 a ha
      | some p => exact (ih s1 _ h1' (hnext s1 p e2 _) l1 n1).2 a ha

theorem undoRehash_sim {n l : ℕ} (hn : n ≤ 2 ^ 62) : ∀ (k r : ℕ) (dirt : List (RNode H)) (s : RamForest H),
    (∀ d ∈ dirt, d.numLeaves = n ∧ n ≤ d.pos) → RowLen l s → s.numLeaves = n → 0 < r →
    Sim (undoRehashV k r dirt s) (undoRehash k r dirt s) ∧ After (undoRehash k r dirt s) (RowLen l) := by
  intro k
  induction k with
  | zero => intro r dirt s _ h _ _; exact ⟨Sim.refl, After.ok h⟩
  | succ k ih =>
    intro r dirt s h1 h2 h3 h4
    have next : ∀ row, vecGet s.ext r = .ok row → ∀ sz,
        RowLen l ({ s with ext := s.ext.set r (vecResize row sz HashOps.zero) } : RamForest H) :=
      fun row e sz => rowLen_set h2 (vecGet_get e) fun h => by omega
    rw [undoRehashV, undoRehash]
    constructor
    · refine Sim.seq fun row e1 => Sim.seq fun sz _ => ?_
      dsimp only
      obtain ⟨g1, g2⟩ := undoRehashRow_sim hn dirt ({ s with ext := s.ext.set r (vecResize row sz HashOps.zero) } : RamForest H) []
        h1 (by simp) (next row e1 sz) h3
      refine Sim.bind g1 fun q e2 => ?_
      obtain ⟨s2, nx⟩ := q
      obtain ⟨q1, q2, q3⟩ := g2 _ e2
      exact (ih (r + 1) nx s2 q3 q1 q2 (by omega)).1
    · intro a ha
      obtain ⟨row, e1, ha⟩ := bind_eq_ok.1 ha
      obtain ⟨sz, -, ha⟩ := bind_eq_ok.1 ha
      dsimp only at ha
      obtain ⟨g1, g2⟩ := undoRehashRow_sim hn dirt ({ s with ext := s.ext.set r (vecResize row sz HashOps.zero) } : RamForest H) []
        h1 (by simp) (next row e1 sz) h3
      obtain ⟨q, e2, ha⟩ := bind_eq_ok.1 ha
      obtain ⟨s2, nx⟩ := q
      obtain ⟨q1, q2, q3⟩ := g2 _ e2
      exact (ih (r + 1) nx s2 q3 q1 q2 (by omega)).2 a ha

theorem firstDirt_ge {n : ℕ} (hn : n ≤ 2 ^ 62) : ∀ (E out : List ℕ), (∀ p ∈ out, n ≤ p) →
    After (firstDirt n E out) fun r => ∀ p ∈ r, n ≤ p := by
  intro E
  induction E with
  | nil => intro out h; exact After.ok h
  | cons pos rest ih =>
    intro out h
    rw [firstDirt]
    refine After.bind (parent_ge hn) fun pp hp => After.seq fun hr => ?_
    have key : ∀ skip : Bool, After (if skip = true then firstDirt n rest out
        else if out.getLast? = some pp then firstDirt n rest out else firstDirt n rest (out ++ [pp])) fun r => ∀ p ∈ r, n ≤ p := by
      intro skip
      split
      · exact ih _ h
      · split
        · exact ih _ h
        · refine ih _ ?_
          intro p hp'
          rcases List.mem_append.1 hp' with h' | h'
          · exact h p h'
          · rw [List.mem_singleton.1 h']; exact hp
    dsimp only
    split
    · exact After.seq fun _ => After.seq fun skip => key skip
    · exact After.seq fun skip => key skip

theorem undoPlace_len {n0 : ℕ} : ∀ (hs : List H) (i : ℕ) (row : List H) (m : PosMap H),
    After (undoPlace n0 hs i row m) fun r => r.1.length = row.length := by
  intro hs
  induction hs with
  | nil => intro i row m; exact After.ok rfl
  | cons h hs ih =>
    intro i row m
    rw [undoPlace]
    split
    · exact After.ok rfl
    · dsimp only
      split
      · exact After.ok (by rw [List.length_set])
      · intro r hr
        rw [ih _ _ _ r hr, List.length_set]

theorem readRoots_ext (s : RamForest H) : After (restoreRoots s) fun r => r.ext = s.ext := by
  unfold restoreRoots
  exact After.seq fun _ => After.seq fun _ => After.pure rfl

theorem rowCheck_ok {m : PosMap H} : ∀ (row : List H) (pos : ℕ), pos + row.length < 2 ^ 31 →
    (∀ i h, row[i]? = some h → PosMap.find m h = some (pos + i)) → rowCheck m row pos = .ok true := by
  intro row
  induction row with
  | nil => intro _ _ _; rfl
  | cons h row ih =>
    intro pos hl hf
    have h0 := hf 0 h rfl
    rw [rowCheck, h0]
    simp only [List.length_cons] at hl
    simp only [add_zero, ne_eq, not_true_eq_false, if_false]
    rw [if_neg (by omega)]
    refine ih (pos + 1) (by omega) ?_
    intro i x hx
    have := hf (i + 1) x hx
    rw [this]
    congr 1
    omega

end Ram

namespace St

theorem toLeavesV_sim {n : ℕ} (hn : n ≤ 2 ^ 62) {sw : Swap} (h : Acc.SwapOk n sw) : toLeavesV n sw = toLeaves n sw := by
  obtain ⟨r, i, j, e1, e2, -, hi, hj⟩ := h
  have hR := numRows_le_62 hn
  obtain ⟨r1, i1⟩ := row_le hn hi
  obtain ⟨-, j1⟩ := row_le hn hj
  have d1 := detectRow_posOf (n := n) (by omega) (by omega) i1
  have d2 := detectRow_posOf (n := n) (by omega) (by omega) j1
  unfold toLeavesV toLeaves
  rw [e1, e2, d1, ok_bind, ok_bind, leftDescendantV_eq d1 le_rfl, leftDescendantV_eq d2 le_rfl]

theorem undoRowV_eq {n : ℕ} (hn : n ≤ 2 ^ 62) : ∀ (row : List Swap), (∀ sw ∈ row, Acc.SwapOk n sw) → undoRowV n row = undoRow n row := by
  intro row
  induction row with
  | nil => intro _; rfl
  | cons sw row ih =>
    intro h
    rw [undoRowV, undoRow, ih fun x hx => h x (List.mem_cons_of_mem _ hx), toLeavesV_sim hn (h sw (by simp))]

theorem undoRowsV_eq {n : ℕ} (hn : n ≤ 2 ^ 62) : ∀ (rows : List (List Swap)), (∀ row ∈ rows, ∀ sw ∈ row, Acc.SwapOk n sw) →
    undoRowsV n rows = undoRows n rows := by
  intro rows
  induction rows with
  | nil => intro _; rfl
  | cons row rows ih =>
    intro h
    rw [undoRowsV, undoRows, ih fun x hx => h x (List.mem_cons_of_mem _ hx), undoRowV_eq hn row (h row (by simp))]

theorem undoTransformV_eq {n : ℕ} (hn : n ≤ 2 ^ 62) {D : List ℕ} (hs : D.Pairwise (· < ·)) (hb : ∀ i ∈ D, i < n) :
    undoTransformV n D = undoTransform n D := by
  unfold undoTransformV undoTransform
  obtain ⟨rows, e, -, h3, -⟩ := C09_transform n hn D hs hb
  rw [e, ok_bind, ok_bind]
  apply undoRowsV_eq hn
  intro row hrow sw hsw
  obtain ⟨r, hr⟩ := List.mem_iff_getElem?.1 hrow
  obtain ⟨i, j, q1, q2, q3, q4, q5⟩ := h3 r row hr sw hsw
  exact ⟨r, i, j, q1, q2, q3, inForest_iff.1 q4, inForest_iff.1 q5⟩

end St

namespace Ram

theorem vecResize_len {α : Type} (v : List α) (k : ℕ) (d : α) : (vecResize v k d).length = k := by
  unfold vecResize
  rw [List.length_append, List.length_take, List.length_replicate]
  omega

/-- A successful `Undo` that leads to a small forest passes all checks. -/
theorem undoV_ok {s s' : RamForest H} {u : UndoBatch H} {n : ℕ} {f : ℕ → H} (hn : n < 2 ^ 31)
    (hp : sub64 (wrap64 (s.numLeaves + u.positions.length)) u.numAdds = n)
    (hs : u.positions.Pairwise (· < ·)) (hb : ∀ i ∈ u.positions, i < n) (hu : undo s u = .ok (true, s')) (hi : Inv s' n f)
    (he : s.ext.length ≠ 0) :
    undoV s u = .ok (true, s') := by
  have hn62 : n ≤ 2 ^ 62 := by omega
  unfold undo at hu
  unfold undoV
  rw [if_neg he] at hu ⊢
  dsimp only at hu ⊢
  rw [hp] at hu ⊢
  rw [St.undoTransformV_eq hn62 hs hb]
  obtain ⟨swaps, e1, hu⟩ := bind_eq_ok.1 hu
  rw [e1, ok_bind]
  obtain ⟨⟨m1, ok1⟩, e2, hu⟩ := bind_eq_ok.1 hu
  rw [e2, ok_bind]
  cases ok1 with
  | false => cases hu
  | true =>
    simp only [Bool.not_true, Bool.false_eq_true, if_false] at hu ⊢
    obtain ⟨row0, e3, hu⟩ := bind_eq_ok.1 hu
    rw [e3, ok_bind]
    obtain ⟨⟨row0', m2, ok2⟩, e4, hu⟩ := bind_eq_ok.1 hu
    rw [e4, ok_bind]
    cases ok2 with
    | false => cases hu
    | true =>
      simp only [Bool.not_true, Bool.false_eq_true, if_false] at hu ⊢
      obtain ⟨s3, e5, hu⟩ := bind_eq_ok.1 hu
      rw [e5, ok_bind]
      obtain ⟨first, e6, hu⟩ := bind_eq_ok.1 hu
      rw [e6, ok_bind]
      obtain ⟨s4, e7, hu⟩ := bind_eq_ok.1 hu
      obtain ⟨s5, e8, hu⟩ := bind_eq_ok.1 hu
      have l2 : row0'.length = n := by
        rw [undoPlace_len _ _ _ _ _ e4, vecResize_len]
      have l2' : RowLen n ({ numLeaves := n, roots := s.roots, posmap := m2, ext := s.ext.set 0 row0' } : RamForest H) := by
        intro row hrow
        simp only [List.getElem?_set] at hrow
        rw [if_pos trivial] at hrow
        split at hrow
        · injection hrow with hrow; rw [← hrow]; exact l2
        · cases hrow
      obtain ⟨l3, n3⟩ := undoSwaps_len _ _ l2' s3 e5
      have hd : ∀ d ∈ first.map (fun p => ({ hash := none, numLeaves := n, pos := p } : RNode H)), d.numLeaves = n ∧ n ≤ d.pos := by
        intro d hd
        obtain ⟨p, hp', rfl⟩ := List.mem_map.1 hd
        exact ⟨rfl, firstDirt_ge hn62 _ [] (by simp) _ e6 p hp'⟩
      obtain ⟨g1, g2⟩ := undoRehash_sim hn62 (St.numRows n) 1 _ s3 hd l3 n3 (by omega)
      rw [g1 s4 e7, ok_bind, e8, ok_bind]
      injection hu with hu
      injection hu with _ hu
      subst hu
      have l5 : RowLen n s5 := by
        unfold RowLen
        rw [readRoots_ext s4 s5 e8]
        exact g2 s4 e7
      obtain ⟨row, hrow⟩ : ∃ row, s5.ext[0]? = some row := by
        have := hi.cells.rows
        exact ⟨_, List.getElem?_eq_getElem (by omega)⟩
      have hlen := l5 row hrow
      rw [vecGet_ok hrow, ok_bind, hlen, hi.pos.len, rowCheck_ok row 0 (by omega) ?_]
      · simp [cassert]
      · intro i h hh
        have hlt : i < n := by rw [← hlen]; exact (List.getElem?_eq_some_iff.1 hh).1
        have := hi.cells.get 0 i (by simpa using hlt)
        unfold cell at this
        rw [hrow] at this
        simp only [Option.bind_some, hh] at this
        injection this with this
        rw [Nat.zero_add]
        exact (hi.pos.find h i).2 ⟨hlt, this.symm⟩

end Ram
end Utreexo
