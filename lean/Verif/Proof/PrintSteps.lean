import Verif.Proof.PrintPlaces
import Verif.Proof.PrintText
import Verif.Proof.UndoExact
import Verif.Props.Pollard

/-!
# The shown roots over the remaining calls and over histories
-/

set_option linter.unusedSectionVars false

namespace Utreexo
open Spec Equiv

variable {H : Type} [DecidableEq H] [HashOps H]

/-! ## Marks and shown numbers -/

theorem rowStart_lt {R : ℕ} : ∀ {h : ℕ}, 1 ≤ h → rowStart R h < rowStart (R + 1) h := by
  intro h
  induction h with
  | zero => intro hh; omega
  | succ r ih =>
    intro _
    have h1 : 2 ^ (R - r) ≤ 2 ^ (R + 1 - r) := Nat.pow_le_pow_right (by omega) (by omega)
    simp only [rowStart]
    rcases Nat.eq_zero_or_pos r with rfl | hr
    · have : 2 ^ (R + 1 - 0) = 2 * 2 ^ (R - 0) := by rw [Nat.sub_zero, Nat.sub_zero, pow_succ]; ring
      have h2 : 0 < 2 ^ (R - 0) := by positivity
      simp only [rowStart]
      omega
    · have := ih hr
      omega

theorem posOf_rows_inj {h : ℕ} (hh : 1 ≤ h) {R R' i : ℕ} : posOf R h i = posOf R' h i ↔ R = R' := by
  constructor
  · intro e
    have hm : StrictMono fun R => rowStart R h := strictMono_nat_of_lt_succ fun R => rowStart_lt hh
    apply hm.injective
    unfold posOf at e
    show rowStart R h = rowStart R' h
    omega
  · rintro rfl; rfl

theorem shown_eq_iff {m m' : Marks} {n : ℕ} : m.shown n = m'.shown n ↔ ∀ h ∈ treeRows n 64, 1 ≤ h → m h = m' h := by
  unfold Marks.shown
  rw [List.map_inj_left]
  refine forall₂_congr fun h _ => ?_
  by_cases hh : 1 ≤ h
  · rw [posOf_rows_inj hh]; exact ⟨fun e _ => e, fun e => e hh⟩
  · obtain rfl : h = 0 := by omega
    rw [posOf_zero, posOf_zero]; simp

/-! ## Texts -/

/-- The text shows exactly the numbers. -/
theorem Acc.printRoots_iff {N X : Type} {vt : VT H N X} (hex : H → Print.Text) {s : Acc H N X} {f : ℕ → H} {n : ℕ} {m : Marks}
    (hs : s.numLeaves = n) (hr : Acc.rootHashes vt s = .ok (merkleRoots HashOps.ph f n)) :
    Print.printRoots vt hex s = .ok (rootsText (m.shown n) ((merkleRoots HashOps.ph f n).map hex)) ↔ Acc.ShownAs vt s m := by
  rw [Print.printRoots_eq hex hr]
  unfold Acc.ShownAs
  rw [hs]
  constructor
  · intro h
    have h := Except.ok.inj h
    refine Print.rootsText_inj _ _ _ ?_ ?_ h
    · rw [List.length_map, List.length_map, Print.mapM_length hr]
    · rw [List.length_map]
      unfold Marks.shown merkleRoots
      rw [List.length_map, List.length_map]
  · intro h; rw [h]

namespace Ram

theorem undo_shown {s s' : RamForest H} {u : UndoBatch H} (hne : s.ext.length ≠ 0) (hn : s'.numLeaves ≤ 2 ^ 62)
    (h : undo s u = .ok (true, s')) : Acc.ShownAs vt s' (Marks.now s'.numLeaves) := by
  unfold undo at h
  rw [if_neg hne] at h
  obtain ⟨swaps, -, h⟩ := bind_eq_ok.1 h
  obtain ⟨⟨m1, ok1⟩, -, h⟩ := bind_eq_ok.1 h
  cases ok1 with
  | false => simp [pure_ok] at h
  | true =>
    obtain ⟨row, -, h⟩ := bind_eq_ok.1 h
    obtain ⟨⟨row', m2, ok2⟩, -, h⟩ := bind_eq_ok.1 h
    cases ok2 with
    | false => simp [pure_ok] at h
    | true =>
      obtain ⟨s3, -, h⟩ := bind_eq_ok.1 h
      obtain ⟨first, -, h⟩ := bind_eq_ok.1 h
      obtain ⟨s4, -, h⟩ := bind_eq_ok.1 h
      obtain ⟨s5, e5, h⟩ := bind_eq_ok.1 h
      simp only [pure_ok, Except.ok.injEq, Prod.mk.injEq, true_and] at h
      subst h
      have h5 : s5.numLeaves = s4.numLeaves := by
        unfold restoreRoots at e5
        obtain ⟨ps, _, e5⟩ := bind_eq_ok.1 e5
        obtain ⟨rs, _, e5⟩ := bind_eq_ok.1 e5
        simp only [pure_ok, Except.ok.injEq] at e5
        rw [← e5]
      obtain ⟨k1, k2⟩ := restoreRoots_shown (by omega) e5
      rw [k1]; exact k2

end Ram

end Utreexo
