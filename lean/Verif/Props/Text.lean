import Verif.Props.Print
import Verif.Props.Compare

/-!
# C67: the printed texts and what can be read off them
-/

set_option linter.unusedSectionVars false

namespace Utreexo
open Spec Equiv Print

/-- `HexStr` as the printing functions use it. -/
def hexOf (h : Hash32) : List Char := hexStr h.1

/-- C67, hashes: two lower-case hexadecimal digits for each byte, the high one first. That is the only such text, and it determines the bytes. -/
theorem C67_hex (b : List Byte) : IsHex b (hexStr b) ∧ (∀ t, IsHex b t → t = hexStr b) ∧ ∀ b', IsHex b' (hexStr b) → b' = b :=
  ⟨hexStr_isHex b, fun _ h => isHex_unique h (hexStr_isHex b), fun _ h => (isHex_iff b (hexStr_isHex b)).1 h⟩

/-- C67, proofs: the text. -/
theorem C67_proof (p : BatchProof Hash32) : printProof p = proofText p.targets (p.hashes.map hexOf) := by
  unfold printProof proofText
  rw [printVector_eq, printHashes_eq]
  simp [hexOf]

/-- C67, proofs: two of them have the same text exactly if they are equal for `operator==`. -/
theorem C67_proof_equal (p q : BatchProof Hash32) : printProof p = printProof q ↔ Batch.proofEq p q = true := by
  unfold Batch.proofEq
  rw [Bool.and_eq_true, beq_iff_eq, beq_iff_eq]
  constructor
  · intro h
    unfold printProof at h
    simp only [List.append_assoc] at h
    obtain ⟨h1, h2⟩ := printVector_inj _ _ _ _ (List.append_cancel_left h)
    have h3 := List.append_cancel_left h2
    have h4 := printHashes_inj p.hashes q.hashes [] [] (by rw [h3])
    exact ⟨h1, h4.1⟩
  · rintro ⟨h1, h2⟩
    unfold printProof
    rw [h1, h2]

/-- C67, undo batches: the text, if the number of additions has been set, and undefined behaviour otherwise. -/
theorem C67_undo (o : Object.UndoObj) :
    (∀ n, o.numAdds = some n → printUndo o = .ok (undoText n o.positions (o.hashes.map hexOf))) ∧
    (o.numAdds = none → printUndo o = .error .ub) := by
  unfold printUndo Object.UndoObj.getNumAdds
  constructor
  · intro n hn
    rw [hn]
    simp only [ok_bind, pure_ok]
    unfold undoText
    rw [printVector_eq, printHashes_eq, dec_eq]
    simp [hexOf]
  · intro hn
    rw [hn]; rfl

/-- C67, undo batches: two of them that can be printed have the same text exactly if they are equal for `operator==`. -/
theorem C67_undo_equal (a b : Object.UndoObj) (t u : List Char) (ha : printUndo a = .ok t) (hb : printUndo b = .ok u) :
    ∃ e, Object.UndoObj.eq a b = .ok e ∧ (t = u ↔ e = true) := by
  unfold printUndo at ha hb
  obtain ⟨m, e1, ha⟩ := bind_eq_ok.1 ha
  obtain ⟨n, e2, hb⟩ := bind_eq_ok.1 hb
  have ha := Except.ok.inj ha
  have hb := Except.ok.inj hb
  unfold Object.UndoObj.eq
  rw [e1, e2]
  refine ⟨_, rfl, ?_⟩
  unfold Batch.undoEq
  simp only [Bool.and_eq_true, beq_iff_eq]
  rw [← ha, ← hb]
  constructor
  · intro h
    simp only [List.append_assoc, List.cons_append, List.nil_append] at h
    have h := List.append_cancel_left (as := ['p', 'r', 'e', 'v', ' ', 'n', 'u', 'm', ' ', 'a', 'd', 'd', 's', ':', ' ']) h
    obtain ⟨rfl, k1⟩ := dec_sep (by decide) h
    have k2 := List.append_cancel_left (as := ['d', 'e', 'l', 'e', 't', 'e', 'd', ' ', 'p', 'o', 's', 'i', 't', 'i', 'o', 'n', 's', ':', ' ']) k1
    obtain ⟨k3, k4⟩ := printVector_inj _ _ _ _ k2
    have k5 := List.append_cancel_left (as := ['d', 'e', 'l', 'e', 't', 'e', 'd', ' ', 'h', 'a', 's', 'h', 'e', 's', ':', ' ']) k4
    have k6 := (printHashes_inj a.hashes b.hashes [] [] (by rw [k5])).1
    rw [k3, k6]
    simp
  · rintro ⟨⟨⟨⟨h1, -⟩, -⟩, h2⟩, h3⟩
    rw [h1, h2, h3]

/-- C67, position map: the text, in whatever order the entries are visited. -/
theorem C67_map (order : List (Hash32 × ℕ)) : printPositionMap order = mapText (order.map fun e => (hexOf e.1, e.2)) := by
  unfold printPositionMap mapText
  rw [printEntries_eq]
  simp [hexOf, Function.comp_def]

/-- C67, swaps: the text of a list of swaps, and it tells lists of swaps apart. -/
theorem C67_swaps (l : List St.Swap) :
    printSwaps l = each " " (l.map fun i => swapText i.isRange i.collapse i.src i.dst i.range) ++ ['\n'] ∧
    ∀ l', printSwaps l = printSwaps l' → l = l' := by
  constructor
  · induction l with
    | nil => rfl
    | cons i l ih =>
      rw [printSwaps, ih]
      simp only [dec_eq]
      cases h1 : i.isRange <;> cases h2 : i.collapse <;> simp [each, swapText, h1, h2]
  · induction l with
    | nil =>
      intro l' h
      cases l' with
      | nil => rfl
      | cons j b => simp only [printSwaps, List.cons_append, List.nil_append, List.cons.injEq] at h; cases hj : j.isRange <;> simp [hj] at h
    | cons i a ih =>
      intro l' h
      cases l' with
      | nil => simp only [printSwaps, List.cons_append, List.nil_append, List.cons.injEq] at h; cases hj : i.isRange <;> simp [hj] at h
      | cons j b =>
        simp only [printSwaps, List.append_assoc, List.cons_append, List.nil_append, List.cons.injEq] at h
        obtain ⟨k1, k2, -, -, k3⟩ := h
        obtain ⟨k4, k5⟩ := dec_sep (by decide) k3
        simp only [List.cons.injEq, true_and] at k5
        obtain ⟨k6, k7⟩ := dec_sep (by decide) k5
        simp only [List.cons.injEq, true_and] at k7
        obtain ⟨k8, k9⟩ := dec_sep (by decide) k7
        rw [ih b k9]
        have e1 : i.isRange = j.isRange := by
          revert k1; cases i.isRange <;> cases j.isRange <;> simp
        have e2 : i.collapse = j.collapse := by
          revert k2; cases i.collapse <;> cases j.collapse <;> simp
        cases i; cases j
        simp_all

/-- C67, position map: two maps that print the same text have the same entries, and maps with the same entries print the same lines, though perhaps
in another order. -/
theorem C67_map_equal (m m' o o' : List (Hash32 × ℕ)) (h : o.Perm m) (h' : o'.Perm m') :
    (printPositionMap o = printPositionMap o' → m.Perm m') ∧
    (m.Perm m' → (o.map fun e => printEntries [e]).Perm (o'.map fun e => printEntries [e])) := by
  constructor
  · intro e
    unfold printPositionMap at e
    have := printEntries_inj _ _ (List.append_cancel_left e)
    rw [this] at h
    exact h.symm.trans h'
  · intro e
    exact ((h.trans e).trans h'.symm).map _

section
variable [HashOps Hash32]

/-- C67, position map of a forest: one line for each leaf, with its hash and its position. -/
theorem C67_map_forest (F : RamForest Hash32) (st : List (UndoBatch Hash32 × RamForest Hash32)) (h : Ram.Run F st) (L : List Hash32)
    (hL : Ram.Represents F L) (order : List (Hash32 × ℕ)) (ho : order.Perm F.posmap) :
    ∃ es : List (Hash32 × ℕ), printPositionMap order = mapText (es.map fun e => (hexOf e.1, e.2)) ∧ es.Nodup ∧ es.length = L.length ∧
      ∀ x p, (x, p) ∈ es ↔ L[p]? = some x := by
  obtain ⟨n, f, h1, h2, -⟩ := h.inv
  have hu := h1.pos.uniq
  refine ⟨order, C67_map order, ?_, by rw [ho.length_eq, hL.size], ?_⟩
  · refine (ho.nodup_iff).2 ?_
    exact List.Nodup.of_map _ hu
  · intro x p
    rw [ho.mem_iff, ← hL.find]
    exact PosMap.mem_iff_find hu (x, p)

/-- C67, roots: two accumulators, forests or pollards, with the same text have the same roots and show the same positions, and the text is the same
if these are. -/
theorem C67_roots {N N' X X' : Type} (vt : VT Hash32 N X) (vt' : VT Hash32 N' X') (s : Acc Hash32 N X) (s' : Acc Hash32 N' X') (hs hs' : List Hash32)
    (h : Acc.rootHashes vt s = .ok hs) (h' : Acc.rootHashes vt' s' = .ok hs') :
    printRoots vt hexOf s = printRoots vt' hexOf s' ↔ hs = hs' ∧ s.roots.map vt.nodePos = s'.roots.map vt'.nodePos := by
  rw [printRoots_eq hexOf h, printRoots_eq hexOf h']
  constructor
  · intro e
    have e := Except.ok.inj e
    obtain ⟨e1, e2⟩ := rootsText_hash_inj _ _ hs hs' (by rw [List.length_map, mapM_length h]) (by rw [List.length_map, mapM_length h']) e
    exact ⟨e2, e1⟩
  · rintro ⟨rfl, e⟩
    rw [e]

end

/-! ## Concrete cases -/

/-- A hash of 32 times the same byte. -/
def sameByte (b : Byte) : Hash32 := ⟨List.replicate 32 b, by simp⟩

example : printProof ⟨[3, 10], [3, 10], [sameByte 0xa7#8]⟩ =
      "targets: 3 10 \nproof: a7a7a7a7a7a7a7a7a7a7a7a7a7a7a7a7a7a7a7a7a7a7a7a7a7a7a7a7a7a7a7a7, \n".toList ∧
    printUndo { numAdds := some 12, positions := [], hashes := [sameByte 0x0f#8] } =
      .ok ("prev num adds: 12\ndeleted positions: \ndeleted hashes: " ++
        "0f0f0f0f0f0f0f0f0f0f0f0f0f0f0f0f0f0f0f0f0f0f0f0f0f0f0f0f0f0f0f0f, \n").toList ∧
    printPositionMap [(sameByte 0x10#8, 0)] =
      "pos map:\n1010101010101010101010101010101010101010101010101010101010101010 -> 0\n".toList := by
  decide +kernel

example : (St.transform 7 [0, 3, 4, 5]).map (fun l => printSwaps l.flatten) = .ok "__ (2, 0) 0 _c (6, 2) 0 \n".toList ∧
    (St.undoTransform 8 [0, 1]).map printSwaps = .ok "r_ (2, 0) 2 r_ (4, 0) 4 \n".toList := by
  decide +kernel

/-- A new undo batch cannot be printed. -/
example : printUndo Object.UndoObj.new = .error .ub := by decide +kernel

end Utreexo
