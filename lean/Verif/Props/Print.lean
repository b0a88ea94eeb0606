import Verif.Proof.PrintSteps

/-!
# C66: what `PrintRoots` shows

The hashes and their order are always right, the positions are not: they are right in a numbering that may be out of date. The
theorems follow the numbering of each tree, its mark, through all calls, and show when all of them are right.
-/

set_option linter.unusedSectionVars false

namespace Utreexo
open Spec Equiv

variable {H : Type} [DecidableEq H] [HashOps H]

/-- The text for the roots of the leaves `L`, tallest tree first, if the root of the tree of height `h` is numbered as in a forest with
`m h` rows. The right one is `rootsOf hex L (Marks.now L.length)`. -/
def rootsOf (hex : H → List Char) (L : List H) (m : Marks) : List Char :=
  rootsText (m.shown L.length) ((merkleRoots HashOps.ph (leafFn HashOps.zero L) L.length).map hex)

/-- What `PrintRoots` writes for a forest. -/
def Ram.shows (hex : H → List Char) (F : RamForest H) : Res (List Char) := Print.printRoots Ram.vt hex F

/-- What `PrintRoots` writes for a pollard. -/
def Pol.shows (hex : H → List Char) (p : Pollard H) : Res (List Char) := Print.printRoots Pol.vt hex p

variable {hex : H → List Char}

theorem Ram.shows_iff {F : RamForest H} {L : List H} (h : Ram.Represents F L) {m : Marks} :
    Ram.shows hex F = .ok (rootsOf hex L m) ↔ Acc.ShownAs Ram.vt F m := Acc.printRoots_iff hex h.count h.roots

theorem Pol.shows_iff {p : Pollard H} {L : List H} (hc : p.numLeaves = L.length)
    (hr : Pol.roots p = .ok (merkleRoots HashOps.ph (leafFn HashOps.zero L) L.length)) {m : Marks} :
    Pol.shows hex p = .ok (rootsOf hex L m) ↔ Acc.ShownAs Pol.vt p m := Acc.printRoots_iff hex hc hr

theorem Pol.Sync.agrees {F : RamForest H} {st : List (UndoBatch H × RamForest H)} {p : Pollard H} (h : Pol.Sync F st p) {L : List H}
    (hL : Ram.Represents F L) : p.numLeaves = L.length ∧ Pol.roots p = .ok (merkleRoots HashOps.ph (leafFn HashOps.zero L) L.length) := by
  obtain ⟨h1, rs, h2, h3⟩ := C23_agree F st p h
  rw [hL.roots] at h2
  rw [h3, ← h2, h1, hL.count]
  exact ⟨rfl, rfl⟩

theorem Ram.Run.size {F : RamForest H} {st : List (UndoBatch H × RamForest H)} (h : Ram.Run F st) : F.numLeaves ≤ 2 ^ 62 := by
  obtain ⟨L, h1, -, h2⟩ := C16_represents F st h
  rw [h1.count]; exact h2

/-! ## The marks of every history -/

theorem shown_empty {N X : Type} {vt : VT H N X} {s : Acc H N X} {m : Marks} (h1 : s.roots = []) (h2 : s.numLeaves = 0) : Acc.ShownAs vt s m := by
  unfold Acc.ShownAs Marks.shown
  rw [h1, h2, show treeRows 0 64 = [] by decide]
  rfl

theorem Ram.Run.shown {F : RamForest H} {st : List (UndoBatch H × RamForest H)} (h : Ram.Run F st) : ∃ m, Acc.ShownAs Ram.vt F m := by
  induction h with
  | empty => exact ⟨fun _ => 0, shown_empty rfl rfl⟩
  | modify hr hrep hv hm ih =>
    obtain ⟨m, hm'⟩ := ih
    have := hv.total
    rw [List.length_map] at this
    exact ⟨_, (Ram.modify_shown hr.size (by rw [hrep.count]; exact this) hm' hm).2⟩
  | rejected hr hns hm ih =>
    rw [Ram.modify_insane _ _ _ hns] at hm
    injection hm with hm
    simp only [Prod.mk.injEq] at hm
    obtain ⟨-, -, rfl⟩ := hm
    exact ih
  | undo hr hu ih =>
    have hsz := (Ram.Run.undo hr hu).size
    obtain ⟨n, f, h1, h2, h3⟩ := hr.inv
    obtain ⟨s', n0, f0, k1, -⟩ := Ram.undo_step h1 h2 h3
    rw [k1] at hu
    simp only [Except.ok.injEq, Prod.mk.injEq] at hu
    obtain ⟨-, rfl⟩ := hu
    exact ⟨_, Ram.undo_shown (by have := h1.cells.rows; omega) hsz k1⟩
  | foreign hr hrep hf hu ih =>
    have hsz := (Ram.Run.foreign hr hrep hf hu).size
    obtain ⟨n, f, h1, h2, -⟩ := hr.inv
    have hL := hrep.unique (h1.represents h2)
    subst hL
    obtain ⟨s', f', k1, k2, -⟩ := Ram.foreign_step h1 h2 hf
    rw [k1] at hu
    simp only [Except.ok.injEq, Prod.mk.injEq] at hu
    obtain ⟨-, rfl⟩ := hu
    exact ⟨_, Ram.undo_shown (by have := h1.cells.rows; omega) hsz k1⟩
  | reopen hr ho _ _ ih => exact ⟨_, (Ram.reopen_shown hr.size ho).2⟩

theorem Pol.SyncInv.shown {F : RamForest H} {st : List (UndoBatch H × RamForest H)} {p p' : Pollard H} {L : List H} {A : Pol.Addr}
    {V : H → Prop} (hI : Pol.SyncInv F st p L A) (hV : Pol.Verifies L p V p') (h : ∃ m, Acc.ShownAs Pol.vt p m) :
    ∃ m, Acc.ShownAs Pol.vt p' m := by
  induction hV with
  | none => exact h
  | next hV hver _ ih =>
    obtain ⟨m, hm⟩ := ih
    obtain ⟨A', hS, -⟩ := hI.verifies hV
    obtain ⟨-, ⟨m', -, h'⟩, -⟩ := Pol.verify_shown hS.inv hS.len hm hver
    exact ⟨m', h'⟩

theorem Pol.prune_shown {p p' : Pollard H} (hp : Pol.pruneAll p = .ok p') : p'.roots = p.roots ∧ p'.numLeaves = p.numLeaves := by
  unfold Pol.pruneAll at hp
  obtain ⟨heap, -, hp⟩ := bind_eq_ok.1 hp
  obtain ⟨_, -, hp⟩ := bind_eq_ok.1 hp
  simp only [pure_ok, Except.ok.injEq] at hp
  subst hp
  exact ⟨rfl, rfl⟩

theorem Pol.copy_shown {p p' : Pollard H} {leaves : List (Leaf H)} {m : Marks} (hn : p.numLeaves + leaves.length ≤ 2 ^ 62) (hm : Acc.ShownAs Pol.vt p m) :
    Acc.ShownAs Pol.vt (copyAfterModify leaves [] p p') (m.aside p.numLeaves leaves.length) := by
  by_cases h0 : leaves.length = 0
  · have e : copyRoots p.numLeaves leaves [] p.roots = p.roots := by unfold copyRoots; rw [if_neg (by simp [h0])]
    have e' : m.aside p.numLeaves leaves.length = m := by unfold Marks.aside; rw [if_neg (by omega)]
    unfold Acc.ShownAs at hm ⊢
    unfold Pol.copyAfterModify
    rw [e, e']
    exact hm
  replace hn : p.numLeaves < 2 ^ 62 := by omega
  unfold Acc.ShownAs at hm ⊢
  unfold copyAfterModify copyRoots
  generalize p.numLeaves = n at hn hm ⊢
  have hn62 : n ≤ 2 ^ 62 := by omega
  have hR := numRows_le_62 hn62
  dsimp only
  rw [wrap64_ok (by omega)]
  have hz : rowsOf n = 0 ↔ n ≤ 1 := rowsOf_eq_zero
  have hmono := rowsOf_mono (show n ≤ n + 1 by omega)
  have hrow := rowsOf_eq hn62
  have hrow' := rowsOf_eq (n := n + 1) (by omega)
  have hiff : ((0 < leaves.length ∧ 1 < n ∧ rowsOf n < rowsOf (n + 1))) ↔
      (([] : List ℕ).length = 0 ∧ leaves.length ≠ 0 ∧ ¬ (St.numRows n = 0 ∨ St.numRows n = St.numRows (n + 1))) := by
    rw [← hrow, ← hrow', List.length_nil]
    omega
  unfold Marks.aside
  by_cases hg : 0 < leaves.length ∧ 1 < n ∧ rowsOf n < rowsOf (n + 1)
  · rw [if_pos hg, if_pos (hiff.1 hg)]
    obtain ⟨-, h1, h2⟩ := hg
    rw [hrow, hrow'] at h2
    have hnR : n ≤ 2 ^ St.numRows n := le_two_pow_numRows (by omega)
    have hfull : n = 2 ^ St.numRows n := by
      by_contra hne
      have h1 : St.numRows (n + 1) ≤ St.numRows n := (numRows_le_iff (by omega) _).2 (by omega)
      omega
    have hup : St.numRows (n + 1) = St.numRows n + 1 := by
      have h1 : St.numRows (n + 1) ≤ St.numRows n + 1 := (numRows_le_iff (by omega) _).2 (by
        rw [pow_succ, ← hfull]; omega)
      omega
    have hrows : treeRows n 64 = [St.numRows n] := by
      refine sorted_gt_ext (treeRows_sorted _ _) (by simp) fun x => ?_
      rw [mem_treeRows, List.mem_singleton]
      rw [show n.testBit x = decide (St.numRows n = x) by rw [hfull, Nat.testBit_two_pow, ← hfull]]
      simp
      constructor
      · rintro ⟨-, rfl⟩; rfl
      · rintro rfl; exact ⟨by omega, rfl⟩
    have hidx : rootIdx (n + 1) (St.numRows n) = rootIdx n (St.numRows n) := by
      unfold rootIdx
      rw [Nat.div_eq_of_lt, Nat.div_eq_of_lt]
      · rw [pow_succ, ← hfull]; omega
      · rw [pow_succ, ← hfull]; omega
    rw [rootPosition_eq (n := n + 1) (by omega) (by omega)]
    unfold Marks.shown at hm ⊢
    rw [hrows] at hm ⊢
    cases hrs : p.roots with
    | nil => rw [hrs] at hm; simp at hm
    | cons r0 rest =>
      rw [hrs] at hm
      have hrest : rest = [] := by
        have := congrArg List.length hm
        simpa using this
      subst hrest
      simp only [List.map_cons, List.map_nil]
      rw [hrow', hup, Nat.add_sub_cancel, hidx]
      rfl
  · rw [if_neg hg, if_neg (fun h => hg (hiff.2 h))]
    exact hm

theorem Pol.Sync.shown {F : RamForest H} {st : List (UndoBatch H × RamForest H)} {p : Pollard H} (h : Pol.Sync F st p) :
    ∃ m, Acc.ShownAs Pol.vt p m := by
  induction h with
  | empty => exact ⟨fun _ => 0, shown_empty rfl rfl⟩
  | restored hrun hrs hp => exact ⟨_, (Pol.fromRoots_shown hrun.size hp).2⟩
  | @later F F' st u p p1 p2 L V D leaves leaves' hs hrep hver hv hl hd hm1 hm2 ih =>
    obtain ⟨L0, A, hI⟩ := hs.inv
    obtain rfl := hrep.unique hI.rep
    obtain ⟨m, hm⟩ := hI.shown hver ih
    obtain ⟨A1, hS, -⟩ := hI.verifies hver
    have h1 := hv.total
    have h2 : leaves'.length = leaves.length := by simpa using congrArg List.length hl
    rw [List.length_map] at h1
    have h3 := hS.inv.ph.num
    exact ⟨_, (Pol.modify_shown (by rw [h3]; exact hI.len) (by rw [h3, h2]; exact h1) hm hm2).2⟩
  | verify hs hrep hver _ ih =>
    obtain ⟨m, hm⟩ := ih
    obtain ⟨L0, A, hI⟩ := hs.inv
    obtain ⟨-, ⟨m', -, h'⟩, -⟩ := Pol.verify_shown hI.inv hI.len hm hver
    exact ⟨m', h'⟩
  | prune hs hp ih =>
    obtain ⟨m, hm⟩ := ih
    obtain ⟨h1, h2⟩ := Pol.prune_shown hp
    refine ⟨m, ?_⟩
    unfold Acc.ShownAs at hm ⊢
    rw [h1, h2]; exact hm
  | rejected hs hns hm ih =>
    rw [Pol.modify_insane _ _ _ hns] at hm
    simp only [Except.ok.injEq, Prod.mk.injEq] at hm
    obtain ⟨-, rfl⟩ := hm
    exact ih
  | reopen _ _ _ _ ih => exact ih
  | @copied F st p p' leaves hs hk hm ih =>
    obtain ⟨m, hm'⟩ := ih
    have h3 := hk.bound
    exact ⟨_, Pol.copy_shown h3 hm'⟩

/-- C66 for every forest: one line for each tree, the tallest first, with the hash of its root and its position in some numbering.
Missing: that it is the numbering of the forest, which is not true. -/
theorem C66_forest_partial (hex : H → List Char) (F : RamForest H) (st : List (UndoBatch H × RamForest H)) (h : Ram.Run F st)
    (L : List H) (hL : Ram.Represents F L) : ∃ m, Ram.shows hex F = .ok (rootsOf hex L m) := by
  obtain ⟨m, hm⟩ := h.shown
  exact ⟨m, (Ram.shows_iff hL).2 hm⟩

/-- C66 for every pollard. Missing: the same. -/
theorem C66_pollard_partial (hex : H → List Char) (F : RamForest H) (st : List (UndoBatch H × RamForest H)) (p : Pollard H)
    (h : Pol.Sync F st p) (L : List H) (hL : Ram.Represents F L) : ∃ m, Pol.shows hex p = .ok (rootsOf hex L m) := by
  obtain ⟨m, hm⟩ := h.shown
  obtain ⟨h1, h2⟩ := h.agrees hL
  exact ⟨m, (Pol.shows_iff h1 h2).2 hm⟩

/-- C66, which marks give the same text: those that agree for all trees of more than one leaf. So a text is the right one exactly if each
of these trees has the mark of the forest. -/
theorem C66_marks_partial (hex : H → List Char) (L : List H) (m m' : Marks) :
    rootsOf hex L m = rootsOf hex L m' ↔ ∀ h ∈ treeRows L.length 64, 1 ≤ h → m h = m' h := by
  rw [← shown_eq_iff]
  unfold rootsOf
  constructor
  · intro h
    refine Print.rootsText_inj _ _ _ ?_ ?_ h
    all_goals
      unfold Marks.shown merkleRoots
      simp only [List.length_map]
  · intro h; rw [h]

/-! ## The calls -/

/-- C66, `Modify` of a forest. -/
theorem C66_modify_partial (hex : H → List Char) (F F' : RamForest H) (st : List (UndoBatch H × RamForest H)) (h : Ram.Run F st)
    (L L' : List H) (hL : Ram.Represents F L) (m : Marks) (hm : Ram.shows hex F = .ok (rootsOf hex L m)) (leaves : List (Leaf H))
    (D : List ℕ) (hv : Ram.Valid L (leaves.map Prod.fst) D) (u : Option (UndoBatch H))
    (hmod : Ram.modify F leaves D = .ok (true, u, F')) (hL' : Ram.Represents F' L') :
    L'.length = L.length - D.length + leaves.length ∧
      Ram.shows hex F' = .ok (rootsOf hex L' (m.block L.length D.length leaves.length)) := by
  have ht := hv.total
  rw [List.length_map] at ht
  obtain ⟨h1, h2⟩ := Ram.modify_shown h.size (by rw [hL.count]; exact ht) ((Ram.shows_iff hL).1 hm) hmod
  rw [hL'.count, hL.count] at h1
  rw [hL.count] at h2
  exact ⟨h1, (Ram.shows_iff hL').2 h2⟩

/-- C66, `Undo` of the last batch, or of another batch that fits: all positions are right. -/
theorem C66_undo_partial (hex : H → List Char) (F F' : RamForest H) (st : List (UndoBatch H × RamForest H)) (h : Ram.Run F st)
    (L L' : List H) (hL : Ram.Represents F L) (u : UndoBatch H) (hu : (∃ F0 st0, st = (u, F0) :: st0) ∨ Ram.Fits F L u) (b : Bool)
    (hun : Ram.undo F u = .ok (b, F')) (hL' : Ram.Represents F' L') : Ram.shows hex F' = .ok (rootsOf hex L' (Marks.now L'.length)) := by
  obtain ⟨n, f, h1, h2, h3⟩ := h.inv
  have hne : F.ext.length ≠ 0 := by have := h1.cells.rows; omega
  rw [Ram.shows_iff hL', ← hL'.count]
  rcases hu with ⟨F0, st0, rfl⟩ | hf
  · have hsz := (Ram.Run.undo h hun).size
    obtain ⟨s', n0, f0, k1, -⟩ := Ram.undo_step h1 h2 h3
    rw [k1] at hun
    simp only [Except.ok.injEq, Prod.mk.injEq] at hun
    obtain ⟨-, rfl⟩ := hun
    exact Ram.undo_shown hne hsz k1
  · have hsz := (Ram.Run.foreign h hL hf hun).size
    have e := hL.unique (h1.represents h2)
    subst e
    obtain ⟨s', f', k1, k2, -⟩ := Ram.foreign_step h1 h2 hf
    rw [k1] at hun
    simp only [Except.ok.injEq, Prod.mk.injEq] at hun
    obtain ⟨-, rfl⟩ := hun
    exact Ram.undo_shown hne hsz k1

/-- C66, closing and opening a forest: all positions are right. -/
theorem C66_reopen_partial (hex : H → List Char) (F F' : RamForest H) (st : List (UndoBatch H × RamForest H)) (h : Ram.Run F st)
    (L : List H) (hL : Ram.Represents F L) (hr : Ram.reopen F = .ok F') :
    Ram.shows hex F' = .ok (rootsOf hex L (Marks.now L.length)) := by
  obtain ⟨n, f, h1, h2, -⟩ := h.inv
  obtain ⟨s', k1, k2, -⟩ := Ram.reopen_ok h1 h2
  have k3 := k1
  rw [hr] at k1
  obtain rfl := Except.ok.inj k1
  have e := hL.unique (h1.represents h2)
  rw [Ram.shows_iff (e ▸ k2.represents h2), ← hL.count]
  exact (Ram.reopen_shown h.size hr).2

/-- C66, a `Modify` rejected for its targets shows the same as before. -/
theorem C66_rejected_partial (hex : H → List Char) (F F' : RamForest H) (leaves : List (Leaf H)) (D : List ℕ) (b : Bool)
    (u : Option (UndoBatch H)) (hD : ¬ (D.Pairwise (· < ·) ∧ ∀ t ∈ D, t < F.numLeaves)) (hm : Ram.modify F leaves D = .ok (b, u, F')) :
    b = false ∧ Ram.shows hex F' = Ram.shows hex F := by
  rw [Ram.modify_insane _ _ _ hD] at hm
  simp only [Except.ok.injEq, Prod.mk.injEq] at hm
  obtain ⟨rfl, -, rfl⟩ := hm
  exact ⟨rfl, rfl⟩

/-- C66, a pollard made from the roots: all positions are right. -/
theorem C66_restored_partial (hex : H → List Char) (F : RamForest H) (st : List (UndoBatch H × RamForest H)) (h : Ram.Run F st)
    (L : List H) (hL : Ram.Represents F L) (rs : List H) (hrs : Ram.roots F = .ok rs) (p : Pollard H)
    (hp : Pol.fromRoots rs F.numLeaves = .ok p) : Pol.shows hex p = .ok (rootsOf hex L (Marks.now L.length)) := by
  obtain ⟨h1, h2⟩ := (Pol.Sync.restored h hrs hp).agrees hL
  rw [Pol.shows_iff h1 h2, ← hL.count]
  exact (Pol.fromRoots_shown h.size hp).2

/-- C66, `Modify` of a pollard that follows a forest before and after. -/
theorem C66_apply_partial (hex : H → List Char) (F F' : RamForest H) (st st' : List (UndoBatch H × RamForest H)) (p p' : Pollard H)
    (h : Pol.Sync F st p) (h' : Pol.Sync F' st' p') (L L' : List H) (hL : Ram.Represents F L) (hL' : Ram.Represents F' L')
    (m : Marks) (hm : Pol.shows hex p = .ok (rootsOf hex L m)) (leaves : List (Leaf H)) (D : List ℕ)
    (hs : L.length - D.length + leaves.length ≤ 2 ^ 62) (hmod : Pol.modify p leaves D = .ok (true, p')) :
    L'.length = L.length - D.length + leaves.length ∧
      Pol.shows hex p' = .ok (rootsOf hex L' (m.block L.length D.length leaves.length)) := by
  obtain ⟨h1, h2⟩ := h.agrees hL
  obtain ⟨h3, h4⟩ := h'.agrees hL'
  obtain ⟨_, _, hI⟩ := h.inv
  obtain rfl := hL.unique hI.rep
  obtain ⟨k1, k2⟩ := Pol.modify_shown (by rw [h1]; exact hI.len) (by rw [h1]; exact hs) ((Pol.shows_iff h1 h2).1 hm) hmod
  rw [h3, h1] at k1
  rw [h1] at k2
  exact ⟨k1, (Pol.shows_iff h3 h4).2 k2⟩

/-- C66, `Verify` with any arguments. If it accepts a nonempty proof the trees with a target are numbered as in the forest, and the others
stay as they were. If it rejects each tree is one or the other. -/
theorem C66_verify_partial (hex : H → List Char) (F : RamForest H) (st : List (UndoBatch H × RamForest H)) (p p' : Pollard H)
    (h : Pol.Sync F st p) (L : List H) (hL : Ram.Represents F L) (m : Marks) (hm : Pol.shows hex p = .ok (rootsOf hex L m))
    (proof : BatchProof H) (hs : List H) (b : Bool) (hv : Pol.verify p proof hs = .ok (b, p')) :
    (∃ m' : Marks, Pol.shows hex p' = .ok (rootsOf hex L m') ∧
      ∀ t, m' t = m t ∨ ((∃ a ∈ proof.sorted, InTree L.length t a) ∧ m' t = rowsOf L.length)) ∧
    (b = true → proof.targets ≠ [] → Pol.shows hex p' = .ok (rootsOf hex L (m.proved L.length proof.sorted))) ∧
    (b = true → proof.targets = [] → Pol.shows hex p' = Pol.shows hex p) := by
  obtain ⟨h1, h2⟩ := h.agrees hL
  obtain ⟨_, _, hI⟩ := h.inv
  obtain rfl := hL.unique hI.rep
  obtain ⟨k1, ⟨m', k2, k3⟩, k4⟩ := Pol.verify_shown hI.inv hI.len ((Pol.shows_iff h1 h2).1 hm) hv
  have h4 := (C26_roots F st p h proof hs b p' hv).2
  rw [h2] at h4
  refine ⟨⟨m', (Pol.shows_iff k1 h4).2 k3, k2⟩, fun hb ht => ?_, fun hb ht => ?_⟩
  · rcases k4 hb with ⟨g, -⟩ | ⟨-, g⟩
    · exact absurd g ht
    · exact (Pol.shows_iff k1 h4).2 g
  · rcases k4 hb with ⟨-, g⟩ | ⟨g, -⟩
    · rw [g]
    · exact absurd ht g

/-- C66, `Verify` with any arguments keeps right positions right. -/
theorem C66_verify_right_partial (hex : H → List Char) (F : RamForest H) (st : List (UndoBatch H × RamForest H)) (p p' : Pollard H)
    (h : Pol.Sync F st p) (L : List H) (hL : Ram.Represents F L) (hm : Pol.shows hex p = .ok (rootsOf hex L (Marks.now L.length)))
    (proof : BatchProof H) (hs : List H) (b : Bool) (hv : Pol.verify p proof hs = .ok (b, p')) :
    Pol.shows hex p' = .ok (rootsOf hex L (Marks.now L.length)) := by
  obtain ⟨⟨m', h1, h2⟩, -⟩ := C66_verify_partial hex F st p p' h L hL _ hm proof hs b hv
  rw [h1]
  congr 1
  rw [C66_marks_partial]
  intro t _ _
  rcases h2 t with e | ⟨-, e⟩
  · exact e
  · exact e

/-- C66, pruning shows the same as before. -/
theorem C66_prune_partial (hex : H → List Char) (F : RamForest H) (st : List (UndoBatch H × RamForest H)) (p p' : Pollard H)
    (h : Pol.Sync F st p) (hp : Pol.pruneAll p = .ok p') : Pol.shows hex p' = Pol.shows hex p := by
  obtain ⟨q, rs, k1, k2, k3, k4, -⟩ := C28_prune F st p h
  rw [hp] at k1
  obtain rfl := Except.ok.inj k1
  unfold Pol.shows
  rw [Print.printRoots_eq hex k3, Print.printRoots_eq hex k4, (Pol.prune_shown hp).1]

/-! ## When all positions are right -/

theorem mem_treeRows_two : 1 ∈ treeRows 2 64 := by decide

/-- C66, batches without deletions, forest or pollard: right positions stay right exactly unless the forest grows to two leaves. -/
theorem C66_adds_partial (hex : H → List Char) (L' : List H) (n a : ℕ) (hl : L'.length = n + a) :
    rootsOf hex L' ((Marks.now n).block n 0 a) = rootsOf hex L' (Marks.now L'.length) ↔ a = 0 ∨ L'.length ≠ 2 := by
  rw [C66_marks_partial, hl]
  unfold Marks.block Marks.now
  simp only [Nat.sub_zero, Nat.lt_irrefl, if_false]
  have hmono := rowsOf_mono (show n ≤ n + a by omega)
  constructor
  · intro h
    by_contra hc
    have h2 : n + a = 2 := by omega
    rw [h2] at h
    have := h 1 mem_treeRows_two le_rfl
    have e1 : rowsOf 2 = 1 := by decide
    have e2 : rowsOf n = 0 := rowsOf_eq_zero.2 (by omega)
    rw [e1, e2] at this
    simp at this
  · rintro (rfl | h) t _ _
    · rw [if_neg]
      · simp only [Nat.add_zero]
      · have := Nat.div_mul_le_self (n + 0) (2 ^ t)
        simp only [Nat.add_zero] at *
        omega
    · rw [if_neg h]
      split
      · rfl
      · omega

/-- C66, batches with deletions, forest or pollard: whatever was shown before, the positions are right exactly if the batch does not leave two
leaves and either the additions bring new rows, or the number of rows is the same before and after, or every tree of more than one leaf is new. -/
theorem C66_deletes_partial (hex : H → List Char) (L' : List H) (m : Marks) (n k a : ℕ) (hk : 0 < k) (hn : k ≤ n)
    (hl : L'.length = n - k + a) :
    rootsOf hex L' (m.block n k a) = rootsOf hex L' (Marks.now L'.length) ↔
      L'.length ≠ 2 ∧ (rowsOf (n - k) < rowsOf L'.length ∨ rowsOf L'.length = rowsOf n ∨
        ∀ h ∈ treeRows L'.length 64, 1 ≤ h → n - k < L'.length / 2 ^ h * 2 ^ h) := by
  rw [C66_marks_partial, hl]
  unfold Marks.block Marks.now
  simp only [hk, if_true]
  constructor
  · intro h
    have h2 : n - k + a ≠ 2 := by
      intro h2
      rw [h2] at h
      have h1 := h 1 mem_treeRows_two le_rfl
      have e1 : rowsOf 2 = 1 := by decide
      rw [e1] at h1
      simp only [if_true] at h1
      split at h1
      · omega
      · rename_i hc
        have e2 : ¬ rowsOf (n - k) ≤ 0 := by omega
        rw [rowsOf_le_iff] at e2
        have e3 : rowsOf n ≤ 1 := by omega
        rw [rowsOf_le_iff] at e3
        omega
    refine ⟨h2, ?_⟩
    by_contra hc
    obtain ⟨c1, c2⟩ := not_or.1 hc
    obtain ⟨c3, c4⟩ := not_or.1 c2
    apply c4
    intro t ht h1
    by_contra c5
    have := h t ht h1
    rw [if_neg (by rw [not_or]; exact ⟨c1, c5⟩)] at this
    exact c3 this.symm
  · rintro ⟨h2, h⟩ t ht h1
    rw [if_neg h2]
    split
    · rfl
    · rename_i hc
      obtain ⟨c1, c2⟩ := not_or.1 hc
      rcases h with h | h | h
      · exact absurd h c1
      · exact h.symm
      · exact absurd (h t ht h1) c2

/-! ## The property is false -/

section Toy
attribute [local instance] toyOps

/-- Decimal digits stand for hexadecimal ones. -/
def toyHex (h : ℕ) : List Char := (toString h).toList

/-- Leaves `1`, …, `n`. -/
def firstLeaves (n : ℕ) : List (Leaf ℕ) := (List.range n).map fun i => (i + 1, true)

/-- C66 is false, two leaves: the root has position 2, `PrintRoots` shows 1 for the forest and for the pollard. -/
theorem C66_two_witness :
    (do let (_, _, F) ← Ram.modify (Ram.mk 0) (firstLeaves 2) []
        let (_, p) ← Pol.modify (Pol.mk 0) (firstLeaves 2) []
        return (← Ram.shows toyHex F, ← Pol.shows toyHex p)) =
      (.ok ("root: 1:1021\n".toList, "root: 1:1021\n".toList) : Res _) ∧
    rootsOf toyHex [1, 2] (Marks.now 2) = "root: 2:1021\n".toList := by
  decide +kernel

/-- C66 is false, rows that go away: with the first two of five leaves deleted the roots have positions 4 and 2, `PrintRoots` shows 8 and 2. -/
theorem C66_shrink_witness :
    (do let (_, _, F) ← Ram.modify (Ram.mk 0) (firstLeaves 5) []
        let (_, _, F') ← Ram.modify F [] [0, 1]
        let (_, p) ← Pol.modify (Pol.mk 0) (firstLeaves 5) []
        let (_, p') ← Pol.modify p [] [0, 1]
        return (← Ram.shows toyHex F, ← Ram.shows toyHex F', ← Pol.shows toyHex p')) =
      (.ok ("root: 12:1051411\nroot: 4:5\n".toList, "root: 8:3041\nroot: 2:5\n".toList, "root: 8:3041\nroot: 2:5\n".toList) : Res _) ∧
    rootsOf toyHex [1, 2, 3, 4, 5] (Marks.now 5) = "root: 12:1051411\nroot: 4:5\n".toList ∧
    rootsOf toyHex [3, 4, 5] (Marks.now 3) = "root: 4:3041\nroot: 2:5\n".toList := by
  decide +kernel

/-- C66 as a statement about all histories is false, for forests and for pollards. -/
theorem C66_witness :
    (¬ ∀ (F : RamForest ℕ) (st : List (UndoBatch ℕ × RamForest ℕ)) (L : List ℕ), Ram.Run F st → Ram.Represents F L →
      Ram.shows toyHex F = .ok (rootsOf toyHex L (Marks.now L.length))) ∧
    ¬ ∀ (F : RamForest ℕ) (st : List (UndoBatch ℕ × RamForest ℕ)) (p : Pollard ℕ) (L : List ℕ), Pol.Sync F st p → Ram.Represents F L →
      Pol.shows toyHex p = .ok (rootsOf toyHex L (Marks.now L.length)) := by
  obtain ⟨u, F, L, h1, h2, h3, h4⟩ := C18_modify (Ram.mk 0) [] Ram.Run.empty ([] : List ℕ) (Ram.mk_inv.represents (by omega)) (firstLeaves 2) []
    ⟨by decide, by decide, by decide, by decide, by decide, by decide⟩
  obtain ⟨p, hp⟩ : ∃ p, Pol.modify (Pol.mk 0) (firstLeaves 2) [] = .ok (true, p) := by
    have := C66_two_witness.1
    simp only [h1, ok_bind] at this
    obtain ⟨⟨b, p⟩, e, -⟩ := bind_eq_ok.1 this
    have hb : (Pol.modify (Pol.mk 0) (firstLeaves 2) []).map Prod.fst = .ok true := by decide +kernel
    rw [e] at hb
    obtain rfl : b = true := Except.ok.inj hb
    exact ⟨p, e⟩
  have hw := C66_two_witness.1
  simp only [h1, hp, ok_bind] at hw
  obtain ⟨t1, e1, hw⟩ := bind_eq_ok.1 hw
  obtain ⟨t2, e2, hw⟩ := bind_eq_ok.1 hw
  simp only [pure_ok, Except.ok.injEq, Prod.mk.injEq] at hw
  obtain ⟨rfl, rfl⟩ := hw
  have hLen : L.length = 2 := by
    have := (C66_modify_partial toyHex _ F _ Ram.Run.empty [] L (Ram.mk_inv.represents (by omega)) (fun _ => 0)
      ((Ram.shows_iff (Ram.mk_inv.represents (by omega))).2 (shown_empty rfl rfl)) (firstLeaves 2) []
      ⟨by decide, by decide, by decide, by decide, by decide, by decide⟩ _ h1 h3).1
    simpa [firstLeaves] using this
  have hne : ∀ x, rootsText [2] [x] ≠ "root: 1:1021\n".toList := by
    intro x h
    rw [show "root: 1:1021\n".toList = ['r', 'o', 'o', 't', ':', ' ', '1', ':', '1', '0', '2', '1', '\n'] by decide +kernel,
      Print.rootsText_cons, show Print.dec 2 = ['2'] by decide +kernel] at h
    simp at h
  have hr : ∃ x, rootsOf toyHex L (Marks.now L.length) = rootsText [2] [x] := by
    unfold rootsOf
    rw [hLen]
    exact ⟨_, rfl⟩
  obtain ⟨x, hx⟩ := hr
  constructor
  · intro h
    have := h F _ L h2 h3
    rw [e1, hx] at this
    exact hne x (Except.ok.inj this).symm
  · intro h
    have hs : Pol.Sync F [(u, Ram.mk 0)] p := Pol.Sync.later (leaves' := firstLeaves 2) (V := fun _ => False) Pol.Sync.empty
      (Ram.mk_inv.represents (by omega)) .none ⟨by decide, by decide, by decide, by decide, by decide, by decide⟩ rfl (.inl (by simp)) h1 hp
    have := h F _ p L hs h3
    rw [e2, hx] at this
    exact hne x (Except.ok.inj this).symm

/-! ## Concrete cases -/

/-- Five leaves are shown right, before and after a batch that keeps the number of rows, and after the batch that does not has been undone or
the forest has been closed and opened. -/
example : (do
      let (_, _, F) ← Ram.modify (Ram.mk 0) (firstLeaves 5) []
      let (_, _, F1) ← Ram.modify F [(8, false), (9, false)] [0, 1]
      let (_, u, F2) ← Ram.modify F [] [0, 1]
      match u with
      | none => .error .exc
      | some u =>
        let (_, F3) ← Ram.undo F2 u
        let F4 ← Ram.reopen F2
        return (← Ram.shows toyHex F1, ← Ram.shows toyHex F3, ← Ram.shows toyHex F4)) =
    (.ok ("root: 12:3091811\nroot: 4:9\n".toList, "root: 12:1051411\nroot: 4:5\n".toList, "root: 4:3041\nroot: 2:5\n".toList) : Res _) := by
  decide +kernel

/-- The conditions of `C66_deletes_partial` for these batches: 5 - 2 + 2 leaves keep three rows, 5 - 2 leaves have two. For 9 - 8 + 3 leaves the
only tree is new. -/
example : (rowsOf 5 = 3 ∧ rowsOf 3 = 2) ∧ (rowsOf 4 ≠ rowsOf 9 ∧ ∀ h ∈ treeRows 4 64, 1 ≤ h → 9 - 8 < 4 / 2 ^ h * 2 ^ h) := by decide +kernel

/-- Proving a leaf renumbers its tree and no other: with the first nine of 15 leaves deleted the trees of 4 and 2 leaves are shown in the
numbering of four rows. A proof for a leaf in the first puts that one right. -/
example : (do
      let (_, _, F) ← Ram.modify (Ram.mk 0) (firstLeaves 15) []
      let (_, p) ← Pol.modify (Pol.mk 0) (firstLeaves 15) []
      let (_, _, F') ← Ram.modify F [] (List.range 9)
      let (_, p') ← Pol.modify p [] (List.range 9)
      let h ← Ram.getLeaf F' 0
      match ← Acc.prove Ram.vt F' [h] with
      | none => .error .exc
      | some pf =>
        let (b, q) ← Pol.verify p' pf [h]
        return (b, p'.roots.map (·.e.pos), q.roots.map (·.e.pos), (Marks.now 6).shown 6)) =
    (.ok (true, [24, 18], [12, 18], [12, 10]) : Res _) := by
  decide +kernel

end Toy

end Utreexo
