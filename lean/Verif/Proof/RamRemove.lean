import Verif.Proof.RamCells
import Verif.Props.State

/-! # `RamForest::Remove` -/

set_option linter.unusedSectionVars false

namespace Utreexo
open Spec Equiv

variable {H : Type} [DecidableEq H] [HashOps H]

/-- Whether the parent of a dirty node is looked up for the next row. -/
def pushDirty {N X : Type} (vt : VT H N X) (cs : ℕ) (d : N) (next : List N) : Res Bool :=
  match next.getLast? with
  | none => .ok true
  | some l => St.parent cs (vt.nodePos d) >>= fun p => .ok (decide (vt.nodePos l ≠ p))

theorem rehashDirty_cons {N X : Type} (vt : VT H N X) (cs : ℕ) (d : N) (ds : List (Option N)) (s : Acc H N X)
    (next : List N) : Acc.rehashDirty vt cs (some d :: ds) s next =
      (vt.nodeReHash s d >>= fun s1 => pushDirty vt cs d next >>= fun b =>
        if b then vt.nodeParent s1 d >>= fun o => Acc.rehashDirty vt cs ds s1 (next ++ o.toList)
        else Acc.rehashDirty vt cs ds s1 next) := by
  rw [Acc.rehashDirty]
  cases vt.nodeReHash s d with
  | error e => rfl
  | ok s1 =>
    rw [ok_bind, ok_bind]
    have key : ∀ b : Bool, (if b = true then (do
        match ← vt.nodeParent s1 d with
        | some p => Acc.rehashDirty vt cs ds s1 (next ++ [p])
        | none => Acc.rehashDirty vt cs ds s1 next) else Acc.rehashDirty vt cs ds s1 next) =
        if b = true then vt.nodeParent s1 d >>= fun o => Acc.rehashDirty vt cs ds s1 (next ++ o.toList)
        else Acc.rehashDirty vt cs ds s1 next := by
      intro b
      cases b with
      | false => rfl
      | true =>
        rw [if_pos rfl, if_pos rfl]
        cases vt.nodeParent s1 d with
        | error e => rfl
        | ok o => cases o <;> simp [ok_bind]
    unfold pushDirty
    cases next.getLast? with
    | none => exact key true
    | some l =>
      simp only
      cases St.parent cs (vt.nodePos d) with
      | error e => rfl
      | ok p => exact key _

namespace Ram

theorem child_bound {n r d : ℕ} (h : d < n / 2 ^ (r + 1)) : 2 * d + 1 < n / 2 ^ r := by
  rw [pow_succ, ← Nat.div_div_eq_div_mul] at h
  omega

theorem nodeReHash_ok {s : RamForest H} {n : ℕ} {c : ℕ → ℕ → H} (h : Holds s n c) (hn : n ≤ 2 ^ 62)
    {r d : ℕ} (hd : d < n / 2 ^ (r + 1)) :
    ∃ s', nodeReHash s (dnode n (r + 1) d) = .ok s' ∧ Holds s' n (rehashCells r [d] c) ∧ Keep s s' := by
  have hR := numRows_le_62 hn
  obtain ⟨r1, i1⟩ := row_le hn hd
  have hb := child_bound hd
  obtain ⟨row, hrow, hval⟩ := cell_some (h.cells.get (r + 1) d hd)
  have hi' : d < 2 ^ (St.numRows n - r) := lt_of_lt_of_le i1 (Nat.pow_le_pow_right (by omega) (by omega))
  refine ⟨{ s with ext := s.ext.set (r + 1) (row.set d (HashOps.ph (c r (2 * d)) (c r (2 * d + 1)))) }, ?_, ?_, ⟨rfl, by simp⟩⟩
  · unfold nodeReHash dnode
    simp only
    rw [child_posOf (by omega) (by omega) hi' (by omega : 0 < 2), ok_bind,
      child_posOf (by omega) (by omega) hi' (by omega : 1 < 2), ok_bind, add_zero,
      read_ok h.num hn h.cells (by omega), ok_bind, read_ok h.num hn h.cells hb, ok_bind,
      detectRow_posOf (by omega) (by omega) i1, ok_bind, rowOffset_posOf (by omega) (by omega) (by omega) i1, ok_bind,
      vecAt_ok hrow, ok_bind, posOf_sub64 hn (by omega) i1, vecSet_ok (lt_of_get hval), ok_bind]
    rfl
  · refine ⟨h.num, ⟨by simpa using h.cells.rows, ?_⟩, ?_⟩
    · intro q x hx
      rw [cell_set (lt_of_get hrow)]
      unfold rehashCells
      by_cases hq : q = r + 1
      · subst hq
        rw [if_pos rfl, List.getElem?_set]
        have hg := h.cells.get (r + 1) x hx
        unfold cell at hg
        rw [hrow] at hg
        by_cases hxd : d = x
        · subst hxd
          simp [lt_of_get hval]
        · rw [if_neg hxd, if_neg (by simp; omega)]; exact hg
      · rw [if_neg hq, if_neg (by omega)]
        exact h.cells.get q x hx
    · have : rehashCells r [d] c 0 = c 0 := by
        funext x; unfold rehashCells; rw [if_neg (by omega)]
      rw [this]; exact h.pos

/-- A dirty node has no parent exactly when it is a root. -/
theorem nodeParent_ok (s : RamForest H) {n : ℕ} (hn : n ≤ 2 ^ 62) {r d : ℕ} (hd : d < n / 2 ^ r) :
    nodeParent s (dnode n r d) =
      .ok (if d = 2 * (n / 2 ^ (r + 1)) then none else some (dnode n (r + 1) (d / 2))) := by
  have hR := numRows_le_62 hn
  obtain ⟨r1, i1⟩ := row_le hn hd
  unfold nodeParent dnode
  simp only
  rw [parent_posOf (by omega) r1 (lt_of_row i1), ok_bind, detectRow_posOf (by omega) (by omega) i1, ok_bind,
    hasRoot_eq (by omega), ok_bind, rootPosition_eq hn r1, ok_bind, rootIdx_le]
  have hb := testBit_div (n := n) (t := r)
  by_cases he : d = 2 * (n / 2 ^ (r + 1))
  · have ht : n.testBit r = true := by
      by_contra hc
      rw [if_neg hc] at hb; omega
    rw [if_pos he, ht, ← he]
    simp
  · rw [if_neg he, if_neg]
    · rfl
    · simp only [Bool.and_eq_true, beq_iff_eq, not_and]
      intro _ hp
      unfold posOf at hp; omega

theorem rehashCells_cons (r d : ℕ) (ds : List ℕ) (c : ℕ → ℕ → H) :
    rehashCells r ds (rehashCells r [d] c) = rehashCells r (d :: ds) c := by
  funext s x
  unfold rehashCells
  by_cases hs : s = r + 1
  · subst hs
    by_cases h1 : x ∈ ds
    · simp [h1]
    · by_cases h2 : x = d
      · simp [h2]
      · simp [h1, h2]
  · simp [hs]

theorem rehashDirty_ok {n : ℕ} (hn : n ≤ 2 ^ 62) {r : ℕ} : ∀ (Dt : List ℕ) (s : RamForest H) (c : ℕ → ℕ → H)
    (N : List ℕ), (∀ d ∈ Dt, d < n / 2 ^ (r + 1)) → Holds s n c →
    ∃ (s' : RamForest H) (N' : List ℕ), Acc.rehashDirty vt n (Dt.map fun d => some (dnode n (r + 1) d)) s (N.map (dnode n (r + 2))) =
        .ok (s', N'.map (dnode n (r + 2))) ∧
      Holds s' n (rehashCells r Dt c) ∧ Keep s s' ∧
      (∀ e, e ∈ N' ↔ e ∈ N ∨ ∃ d ∈ Dt, d ≠ 2 * (n / 2 ^ (r + 2)) ∧ d / 2 = e) := by
  intro Dt
  induction Dt with
  | nil =>
    intro s c N _ h
    refine ⟨s, N, rfl, ?_, ⟨rfl, rfl⟩, by simp⟩
    have : rehashCells r [] c = c := by funext s x; simp [rehashCells]
    rw [this]; exact h
  | cons d ds ih =>
    intro s c N hb h
    have hd := hb d (by simp)
    have hR := numRows_le_62 hn
    obtain ⟨r1, i1⟩ := row_le hn hd
    obtain ⟨s1, a1, a2, a3⟩ := nodeReHash_ok h hn hd
    have hpar := nodeParent_ok s1 hn hd
    -- the list after this node
    have hstep : ∃ N1 : List ℕ, Acc.rehashDirty vt n ((d :: ds).map fun d => some (dnode n (r + 1) d)) s
        (N.map (dnode n (r + 2))) = Acc.rehashDirty vt n (ds.map fun d => some (dnode n (r + 1) d)) s1
        (N1.map (dnode n (r + 2))) ∧ (∀ e, e ∈ N1 ↔ e ∈ N ∨ (d ≠ 2 * (n / 2 ^ (r + 2)) ∧ d / 2 = e)) := by
      rw [List.map_cons, rehashDirty_cons]
      have e1 : vt.nodeReHash s (dnode n (r + 1) d) = .ok s1 := a1
      have e2 : vt.nodeParent s1 (dnode n (r + 1) d) = _ := hpar
      rw [e1, ok_bind, e2, ok_bind]
      have hb : ∃ b, pushDirty vt n (dnode (H := H) n (r + 1) d) (N.map (dnode n (r + 2))) = .ok b ∧
          (b = false → d / 2 ∈ N) := by
        unfold pushDirty
        rw [List.getLast?_map]
        cases hl : N.getLast? with
        | none => exact ⟨true, rfl, by simp⟩
        | some l =>
          refine ⟨decide (posOf (St.numRows n) (r + 2) l ≠ posOf (St.numRows n) (r + 2) (d / 2)), ?_, ?_⟩
          · show (St.parent n (posOf (St.numRows n) (r + 1) d) >>= _) = _
            rw [parent_posOf (by omega) r1 (lt_of_row i1)]
            rfl
          · intro hf
            have : l = d / 2 := by
              have : posOf (St.numRows n) (r + 2) l = posOf (St.numRows n) (r + 2) (d / 2) := by simpa using hf
              unfold posOf at this; omega
            rw [← this]; exact List.mem_of_getLast? hl
      obtain ⟨b, hb1, hb2⟩ := hb
      rw [hb1, ok_bind]
      by_cases he : d = 2 * (n / 2 ^ (r + 2))
      · refine ⟨N, ?_, by simp [he]⟩
        rw [if_pos he]
        simp
      · cases b with
        | false =>
          refine ⟨N, by simp, ?_⟩
          intro e
          constructor
          · exact .inl
          · rintro (h | ⟨-, rfl⟩)
            · exact h
            · exact hb2 rfl
        | true =>
          refine ⟨N ++ [d / 2], ?_, ?_⟩
          · rw [if_neg he]
            simp
          · intro e; simp [he, eq_comm]
    obtain ⟨N1, e1, e2⟩ := hstep
    obtain ⟨s', N', b1, b2, b3, b4⟩ := ih s1 (rehashCells r [d] c) N1 (fun x hx => hb x (by simp [hx])) a2
    refine ⟨s', N', by rw [e1, b1], by rw [rehashCells_cons] at b2; exact b2, b3.trans a3, ?_⟩
    intro e
    rw [b4, e2]
    simp only [List.mem_cons, exists_eq_or_imp]
    tauto

/-- Rows of 31 and above have swaps only in forests of `2^32` leaves and more. -/
theorem row_small {n n' : ℕ} {D : List ℕ} (hn : n < 2 ^ 32) (hi : ∀ r, RowInv n n' D r) {r : ℕ} (hr : r < St.numRows n)
    (hne : opsAt n n' D r (sg n n' D (St.numRows n) (r + 1)) ≠ []) : r < 31 := by
  have hnR : n ≤ 2 ^ St.numRows n := le_two_pow_numRows (by omega)
  have hops := opsAt_ok (hi r) (sg_sinks hi hnR (r := r + 1) hr)
  obtain ⟨o, ho⟩ := List.exists_mem_of_ne_nil _ hne
  obtain ⟨h1, h2, h3⟩ := hops.bound o ho
  by_contra hc
  have h4 : n / 2 ^ r ≤ n / 2 ^ 31 := Nat.div_le_div_left (Nat.pow_le_pow_right (by omega) (by omega)) (by positivity)
  omega

theorem removeRows_ok {n n' : ℕ} {D : List ℕ} (hn62 : n ≤ 2 ^ 62) (hi : ∀ r, RowInv n n' D r)
    (hsafe : ∀ r, r < St.numRows n → opsAt n n' D r (sg n n' D (St.numRows n) (r + 1)) ≠ [] → r < 31) :
    ∀ (k r m : ℕ) (s : RamForest H) (c : ℕ → ℕ → H) (Dt : List ℕ), k + r = St.numRows n → m ≤ k →
    (∀ q, r + m ≤ q → q < St.numRows n → opsAt n n' D q (sg n n' D (St.numRows n) (q + 1)) = []) →
    Holds s n c → DirtInv n n' D (St.numRows n) r c Dt →
    ∃ (s' : RamForest H) (c' : ℕ → ℕ → H), Acc.removeRows vt n k ((List.range' r m).map fun q =>
        posOps (St.numRows n) q (opsAt n n' D q (sg n n' D (St.numRows n) (q + 1)))) s
        (Dt.map (dnode n (r + 1))) = .ok (s', []) ∧ Holds s' n c' ∧
      DirtInv n n' D (St.numRows n) (St.numRows n) c' [] ∧
      c' 0 = c 0 ∘ up r (sg n n' D (St.numRows n) r).symm ∧ Keep s s' := by
  have hnR : n ≤ 2 ^ St.numRows n := le_two_pow_numRows (by omega)
  intro k
  induction k with
  | zero =>
    intro r m s c Dt hk hm hnil hH hJ
    have hrR : r = St.numRows n := by omega
    subst hrR
    have hDt : Dt = [] := by
      apply List.eq_nil_iff_forall_not_mem.2
      intro d hd
      have := hJ.bound d hd
      rw [Nat.div_eq_of_lt (lt_of_le_of_lt hnR (Nat.pow_lt_pow_right (by omega) (by omega)))] at this
      omega
    subst hDt
    refine ⟨s, c, rfl, hH, hJ, ?_, ⟨rfl, rfl⟩⟩
    rw [sg_top _ _ _ le_rfl]
    funext x
    rw [show ((1 : Perm ℕ).symm) = 1 from rfl, up_one]; rfl
  | succ k ih =>
    intro r m s c Dt hk hm hnil hH hJ
    have hr : r < St.numRows n := by omega
    have hops := opsAt_ok (hi r) (sg_sinks hi hnR (r := r + 1) hr)
    have hperm := seqPerm_opsAt n n' D r (sg n n' D (St.numRows n) (r + 1))
    set ops := opsAt n n' D r (sg n n' D (St.numRows n) (r + 1)) with hops_def
    -- the rows of swaps left
    have hhead : (((List.range' r m).map fun q =>
        posOps (St.numRows n) q (opsAt n n' D q (sg n n' D (St.numRows n) (q + 1)))).headD []) =
        posOps (St.numRows n) r ops := by
      cases m with
      | zero => rw [hops_def, hnil r (by omega) hr]; rfl
      | succ m => rfl
    have htail : (((List.range' r m).map fun q =>
        posOps (St.numRows n) q (opsAt n n' D q (sg n n' D (St.numRows n) (q + 1)))).tail) =
        (List.range' (r + 1) (m - 1)).map fun q =>
        posOps (St.numRows n) q (opsAt n n' D q (sg n n' D (St.numRows n) (q + 1))) := by
      cases m with
      | zero => rfl
      | succ m => rfl
    obtain ⟨s1, a1, a2, a3⟩ := runSwaps_ok hn62 ops (hsafe r hr) s c ((Dt.map (dnode n (r + 1))).map some)
      hops.bound hH
    rw [hperm] at a2
    set Dt' := Dt ++ (ops.filter fun o => !o.2.2).map fun o => o.2.1 / 2 with hDt'
    have hDtm : ∀ d, d ∈ Dt' ↔ d ∈ Dt ∨ ∃ o ∈ ops, o.2.2 = false ∧ o.2.1 / 2 = d := by
      intro d
      rw [hDt', List.mem_append, List.mem_map]
      simp [and_assoc]
    have hDtb : ∀ d ∈ Dt', d < n / 2 ^ (r + 1) := by
      intro d hd
      rcases (hDtm d).1 hd with h | ⟨o, ho, hf, rfl⟩
      · exact hJ.bound d h
      · exact (hops.dst o ho hf).1
    obtain ⟨s2, N, b1, b2, b3, b4⟩ := rehashDirty_ok hn62 Dt' s1 _ [] hDtb a2
    have hJ' := dirt_step hi hnR hr hJ hDtm (next := N) (by intro d; rw [b4]; simp)
    obtain ⟨s3, c3, d1, d2, d3, d4, d5⟩ := ih (r + 1) (m - 1) s2 _ N (by omega) (by omega)
      (fun q hq hqR => hnil q (by omega) hqR) b2 hJ'
    refine ⟨s3, c3, ?_, d2, d3, ?_, d5.trans (b3.trans a3)⟩
    · rw [Acc.removeRows, hhead, htail, a1, ok_bind]
      simp only
      have e : (Dt.map (dnode (H := H) n (r + 1))).map some ++
          (ops.filter fun o => !o.2.2).map (fun o => some (dnode n (r + 1) (o.2.1 / 2))) =
          Dt'.map fun d => some (dnode n (r + 1) d) := by
        rw [hDt', List.map_append, List.map_map, List.map_map]; rfl
      rw [e]
      have b1' : Acc.rehashDirty vt n (Dt'.map fun d => some (dnode n (r + 1) d)) s1 [] = _ := b1
      rw [b1', ok_bind]
      exact d1
    · rw [d4, sg_step _ _ _ hr]
      funext x
      simp only [Function.comp]
      have e0 : ∀ y, rehashCells r Dt' (permCells r (rowPerm n n' D r (sg n n' D (St.numRows n) (r + 1))).symm c) 0 y =
          c 0 (up r (rowPerm n n' D r (sg n n' D (St.numRows n) (r + 1))).symm y) := by
        intro y; simp [rehashCells, permCells]
      rw [e0]
      congr 1
      have : (up 1 (sg n n' D (St.numRows n) (r + 1)) * rowPerm n n' D r (sg n n' D (St.numRows n) (r + 1))).symm =
          (rowPerm n n' D r (sg n n' D (St.numRows n) (r + 1))).symm * up 1 (sg n n' D (St.numRows n) (r + 1)).symm := by
        ext y; rfl
      rw [this, up_mul, up_up]; rfl

/-! ## Finishing a removal -/

/-- `m` after erasing the leaves `n' .. pos - 1` of `f 0, ..., f (n-1)`. -/
structure Upto (m : PosMap H) (f : ℕ → H) (n' pos n : ℕ) : Prop where
  uniq : PosMap.Uniq m
  len : m.length = n' + (n - pos)
  find : ∀ h p, PosMap.find m h = some p ↔ p < n ∧ (p < n' ∨ pos ≤ p) ∧ f p = h

theorem Upto.erase {m : PosMap H} {f : ℕ → H} {n' pos n : ℕ} (u : Upto m f n' pos n) (h1 : n' ≤ pos) (h2 : pos < n) :
    Upto (PosMap.erase m (f pos)) f n' (pos + 1) n := by
  have hf := (u.find (f pos) pos).2 ⟨h2, .inr le_rfl, rfl⟩
  refine ⟨u.uniq.erase _, ?_, ?_⟩
  · have := PosMap.length_erase u.uniq hf
    have := u.len
    omega
  · intro h p
    rw [PosMap.find_erase]
    by_cases he : h = f pos
    · subst he
      simp only [if_true]
      constructor
      · intro h; simp at h
      · rintro ⟨g1, g2, g3⟩
        have := (u.find (f pos) p).2 ⟨g1, by omega, g3⟩
        rw [hf] at this
        injection this with this
        omega
    · rw [if_neg he, u.find]
      constructor
      · rintro ⟨g1, g2, g3⟩
        refine ⟨g1, ?_, g3⟩
        rcases g2 with g | g
        · exact .inl g
        · right
          rcases Nat.lt_or_eq_of_le g with g | g
          · exact g
          · subst g; exact absurd g3.symm he
      · rintro ⟨g1, g2, g3⟩
        exact ⟨g1, by omega, g3⟩

theorem eraseLoop_ok {s : RamForest H} {n n' : ℕ} {c : ℕ → ℕ → H} (hs : s.numLeaves = n) (hn : n ≤ 2 ^ 62)
    (hc : Cells s.ext n c) : ∀ (k pos : ℕ) (m : PosMap H), n' ≤ pos → pos + k = n → Upto m (c 0) n' pos n →
    ∃ m', eraseLoop s pos k m = .ok m' ∧ Upto m' (c 0) n' n n := by
  intro k
  induction k with
  | zero =>
    intro pos m _ hk u
    have : pos = n := by omega
    subst this
    exact ⟨m, rfl, u⟩
  | succ k ih =>
    intro pos m h1 hk u
    obtain ⟨m', g1, g2⟩ := ih (pos + 1) _ (by omega) (by omega) (u.erase h1 (by omega))
    exact ⟨m', by rw [eraseLoop, read_leaf hs hn hc (by omega), ok_bind, g1], g2⟩

theorem Upto.exact {m : PosMap H} {f : ℕ → H} {n' n : ℕ} (u : Upto m f n' n n) (h : n' ≤ n) : PosMap.Exact m f n' := by
  refine ⟨u.uniq, by rw [u.len]; omega, fun h p => ?_⟩
  rw [u.find]
  constructor
  · rintro ⟨g1, g2, g3⟩; exact ⟨by omega, g3⟩
  · rintro ⟨g1, g2⟩; exact ⟨by omega, .inl g1, g2⟩

theorem upto_of_exact {m : PosMap H} {f : ℕ → H} {n' n : ℕ} (e : PosMap.Exact m f n) (h : n' ≤ n) :
    Upto m f n' n' n := by
  refine ⟨e.uniq, by rw [e.len]; omega, fun h p => ?_⟩
  rw [e.find]
  constructor
  · rintro ⟨g1, g3⟩; exact ⟨g1, by omega, g3⟩
  · rintro ⟨g1, g2, g3⟩; exact ⟨g1, g3⟩

theorem readRoots_ok {s : RamForest H} {n : ℕ} {c : ℕ → ℕ → H} (hs : s.numLeaves = n) (hn : n ≤ 2 ^ 62)
    (hc : Cells s.ext n c) (num : ℕ) (idx : ℕ → ℕ) : ∀ ts : List ℕ, (∀ t ∈ ts, idx t < n / 2 ^ t) →
    readRoots s num (ts.map fun t => posOf (St.numRows n) t (idx t)) =
      .ok (ts.map fun t => { hash := some (c t (idx t)), numLeaves := num, pos := posOf (St.numRows n) t (idx t) }) := by
  intro ts
  induction ts with
  | nil => intro _; rfl
  | cons t ts ih =>
    intro h
    rw [List.map_cons, readRoots, read_ok hs hn hc (h t (by simp)), ok_bind, ih (fun t' ht => h t' (by simp [ht])),
      ok_bind]
    rfl

/-- The invariant of a `RamForest` holding the leaves `f 0, ..., f (n-1)`. -/
structure Inv (s : RamForest H) (n : ℕ) (f : ℕ → H) : Prop where
  num : s.numLeaves = n
  cells : Cells s.ext n (mt f)
  pos : PosMap.Exact s.posmap f n
  roots : s.roots.map RNode.hash = (treeRows n 64).map fun t => some (mt f t (rootIdx n t))

theorem root_in {n t : ℕ} (h : n.testBit t = true) : rootIdx n t < n / 2 ^ t := by
  have := testBit_div (n := n) (t := t)
  rw [if_pos h] at this
  rw [rootIdx_le]; omega

theorem treeRows_eq {num n : ℕ} (hn : n ≤ 2 ^ 62) (h : num ≤ n) :
    treeRows num (St.numRows n + 1) = treeRows num 64 := by
  have hR := numRows_le_62 hn
  have := le_two_pow_numRows (n := n) (by omega)
  refine (treeRows_ext (by omega) ?_).symm
  rw [pow_succ]
  have : 0 < 2 ^ St.numRows n := by positivity
  omega

theorem finalizeRemove_ok {s : RamForest H} {n n' : ℕ} {c : ℕ → ℕ → H} (h : Holds s n c) (hn : n ≤ 2 ^ 62)
    (hle : n' ≤ n) (hgood : ∀ q x, x < n' / 2 ^ q → c q x = mt (c 0) q x) :
    ∃ s', finalizeRemove s n' = .ok s' ∧ s'.ext = s.ext ∧ s'.numLeaves = n ∧
      PosMap.Exact s'.posmap (c 0) n' ∧
      s'.roots.map RNode.hash = (treeRows n' 64).map fun t => some (mt (c 0) t (rootIdx n' t)) := by
  obtain ⟨m, g1, g2⟩ := eraseLoop_ok (n' := n') h.num hn h.cells (n - n') n' s.posmap le_rfl (by omega)
    (upto_of_exact h.pos hle)
  have hx := g2.exact hle
  have hdiv : ∀ t, n' / 2 ^ t ≤ n / 2 ^ t := fun t => Nat.div_le_div_right hle
  refine ⟨{ s with posmap := m, roots := (treeRows n' 64).map fun t =>
    { hash := some (c t (rootIdx n' t)), numLeaves := n', pos := posOf (St.numRows n) t (rootIdx n' t) } },
    ?_, rfl, h.num, hx, ?_⟩
  · unfold finalizeRemove
    rw [h.num, cassert_true (by simpa using hle), ok_bind, g1, ok_bind, cassert_true (by simpa using hx.len), ok_bind,
      rootPositionsOf_eq hn hle, ok_bind, treeRows_eq hn hle,
      readRoots_ok (s := { s with numLeaves := n, posmap := m }) (n := n) rfl hn h.cells n' (rootIdx n'), ok_bind]
    · rfl
    · intro t ht
      have := root_in (mem_treeRows.1 ht).2
      have := hdiv t
      omega
  · simp only [List.map_map]
    apply List.map_congr_left
    intro t ht
    simp only [Function.comp]
    rw [hgood t _ (root_in (mem_treeRows.1 ht).2)]

/-- Removing `D` from `n` leaves swaps nothing in the rows of 31 and above. -/
def Calm (n : ℕ) (D : List ℕ) : Prop :=
  ∀ r, r < St.numRows n → opsAt n (n - D.length) D r (sg n (n - D.length) D (St.numRows n) (r + 1)) ≠ [] → r < 31

theorem calm_small {n : ℕ} {D : List ℕ} (hn : D ≠ [] → n < 2 ^ 32) (hn62 : n ≤ 2 ^ 62) (hs : D.Pairwise (· < ·)) (hb : ∀ i ∈ D, i < n) :
    Calm n D := by
  have hlen : D.length ≤ n := by
    have := sorted_length_add_le D 0 n hs (fun x hx => ⟨Nat.zero_le _, hb x hx⟩) (Nat.zero_le _)
    omega
  have hi := rowInv hs hb (n' := n - D.length) (by omega)
  intro r hr hne
  by_cases hD : D = []
  · subst hD
    exact absurd (nil_opsAt hi (le_two_pow_numRows (by omega)) hr (Dn_nil_mono hi (r := 0) rfl r (by omega))) hne
  · exact row_small (hn hD) hi hr hne

/-- `Remove` with sane targets: the leaves are permuted so that the deleted ones come last and are
cut off. -/
theorem remove_ok {s : RamForest H} {n : ℕ} {f : ℕ → H} {D : List ℕ} (h : Inv s n f) (hn62 : n ≤ 2 ^ 62)
    (hcalm : Calm n D)
    (hs : D.Pairwise (· < ·)) (hb : ∀ i ∈ D, i < n) :
    ∃ s', Acc.remove vt s D = .ok (true, s') ∧
      Inv s' (n - D.length) (f ∘ (sg n (n - D.length) D (St.numRows n) 0).symm) ∧
      s'.ext.length = s.ext.length ∧
      ∀ x, x < n → cell s'.ext 0 x = some (f ((sg n (n - D.length) D (St.numRows n) 0).symm x)) := by
  have hnR : n ≤ 2 ^ St.numRows n := le_two_pow_numRows (by omega)
  have hlen : D.length ≤ n := by
    have := sorted_length_add_le D 0 n hs (fun x hx => ⟨Nat.zero_le _, hb x hx⟩) (Nat.zero_le _)
    omega
  have hi := rowInv hs hb (n' := n - D.length) (by omega)
  unfold Acc.remove
  by_cases hD : D.length = 0
  · have hD' : D = [] := List.eq_nil_of_length_eq_zero hD
    subst hD'
    have h1 := nil_sg hi hnR (St.numRows n) 0 (by omega) rfl
    simp only [List.length_nil, Nat.sub_zero] at h1 ⊢
    rw [h1]
    have hid : f ∘ (1 : Perm ℕ).symm = f := by funext x; rfl
    refine ⟨s, rfl, by rw [hid]; exact h, rfl, ?_⟩
    intro x hx
    exact h.cells.get 0 x (by simpa using hx)
  · rw [if_neg hD]
    obtain ⟨b, hb1, hb2⟩ := C07_checkTargetsSanity n D
    have hbt : b = true := hb2.2 ⟨hs, hb⟩
    subst hbt
    have hv := visited_le n D (St.numRows n) 0
    have hH : Holds s n (mt f) := ⟨h.num, h.cells, h.pos⟩
    have hJ : DirtInv n (n - D.length) D (St.numRows n) 0 (mt f) [] := by
      refine ⟨?_, ?_, by simp⟩
      · intro q hq x hx; rfl
      · intro q hq x hx; exact .inl rfl
    obtain ⟨s1, c1, a1, a2, a3, a4, a5⟩ := removeRows_ok hn62 hi hcalm (St.numRows n) 0 (visited n D (St.numRows n) 0) s
      (mt f) [] (by omega) hv (by
        intro q hq hqR
        exact nil_opsAt hi hnR hqR (visited_nil hi (St.numRows n) 0 q hq (by omega))) hH hJ
    have hc0 : c1 0 = f ∘ (sg n (n - D.length) D (St.numRows n) 0).symm := by
      rw [a4, up_zero]; rfl
    have hgood : ∀ q x, x < (n - D.length) / 2 ^ q → c1 q x = mt (c1 0) q x := by
      intro q x hx
      have hxn : x < n / 2 ^ q := lt_of_lt_of_le hx (Nat.div_le_div_right (by omega))
      obtain ⟨q1, -⟩ := row_le hn62 hxn
      apply a3.low q q1
      rw [sg_top _ _ _ le_rfl, up_one]
      exact hx
    obtain ⟨s2, b1, b2, b3, b4, b5⟩ := finalizeRemove_ok (n' := n - D.length) a2 hn62 (by omega) hgood
    rw [hc0] at b4 b5 hgood
    refine ⟨{ s2 with numLeaves := n - D.length }, ?_, ⟨rfl, ⟨?_, ?_⟩, b4, b5⟩, ?_, ?_⟩
    · simp only [h.num]
      rw [hb1, ok_bind]
      simp only [Bool.not_true, Bool.false_eq_true, if_false]
      rw [transform_eq hn62 hs hb, ok_bind]
      have a1' : Acc.removeRows vt n (St.numRows n) ((List.range' 0 (visited n D (St.numRows n) 0)).map fun q =>
        posOps (St.numRows n) q (opsAt n (n - D.length) D q (sg n (n - D.length) D (St.numRows n) (q + 1)))) s [] = _ := a1
      rw [a1', ok_bind]
      simp only
      rw [cassert_true (by simp), ok_bind, a2.num, sub64_ok hlen (by omega)]
      have b1' : vt.finalizeRemove s1 (n - D.length) = _ := b1
      rw [b1', ok_bind]
      rfl
    · show St.numRows (n - D.length) < s2.ext.length
      rw [b2]
      have h1 := a2.cells.rows
      have h2 : St.numRows (n - D.length) ≤ St.numRows n :=
        (numRows_le_iff (by omega) _).2 (by omega)
      omega
    · intro q x hx
      show cell s2.ext q x = _
      rw [b2, a2.cells.get q x (lt_of_lt_of_le hx (Nat.div_le_div_right (by omega))), hgood q x hx]
    · show s2.ext.length = s.ext.length
      rw [b2]; exact a5.rows
    · intro x hx
      show cell s2.ext 0 x = _
      rw [b2, a2.cells.get 0 x (by simpa using hx), hc0]; rfl

end Ram
end Utreexo
