import Verif.Proof.PolVerify

/-!
# Where `Verify` can fault

Only the construction of the proof tree can, and it does not look at the hashes of the targets.
-/

set_option linter.unusedSectionVars false

namespace Utreexo
open Spec Equiv

variable {H : Type} [DecidableEq H] [HashOps H]

namespace Pol

/-- A fault of `Verify` is a fault of `CreateProofTree`. -/
theorem verify_fault {s : Pollard H} {n : ℕ} {f : ℕ → H} {A : Addr} (h : Inv s n f A) (hn62 : n ≤ 2 ^ 62) (proof : BatchProof H)
    (hs : List H) {e : Fault} (hv : verify s proof hs = .error e) : createProofTree s proof = .error .ub := by
  unfold verify at hv
  by_cases hl : hs.length ≠ proof.targets.length
  · rw [if_pos hl] at hv; cases hv
  rw [if_neg hl] at hv
  have hl' : hs.length = proof.targets.length := not_not.1 hl
  obtain ⟨b, e0, hb⟩ := checkSanity_ok (H := H) hn62 proof
  rw [h.ph.num, e0, ok_bind] at hv
  cases b with
  | false => simp only [Bool.not_false, if_true] at hv; cases hv
  | true =>
    have hS := (hb.1 rfl).1
    simp only [Bool.not_true, Bool.false_eq_true, if_false] at hv
    by_cases ht : proof.targets.length = 0
    · rw [if_pos ht] at hv; cases hv
    rw [if_neg ht] at hv
    have hK : (ctxOf s n f A proof hs).Ok := ⟨hS, h.ph.shape, h.ph.hashed, h.out, fun r x => mt_succ f r x⟩
    rcases createProofTree_ok (K := ctxOf s n f A proof hs) (s := s) (proof := proof) hK h.ph.num rfl h.ph.roots rfl rfl (fun hh => hh.2) with
      ⟨e1, hz⟩ | ⟨c, tree, e1, ⟨cs, A1, I, P, etree⟩, hc⟩ | ⟨c, tree, e1, nh, k, dn, cs, A1, I⟩
    · exact e1
    · exfalso
      rw [e1] at hv
      simp only [ok_bind, if_true] at hv
      have B := base_of hK I P
      have V := vi_of hK I hs
      have key : (∃ t', verifyProofTree n (VPT.mk c.heap c.arena hs) tree = .ok (true, t') ∧ hs.length ≤ proof.sorted.length) ∨
          (∃ t' ν', verifyProofTree n (VPT.mk c.heap c.arena hs) tree = .ok (false, t') ∧
            VW (ctxOf s n f A proof hs) A1 cs c.heap t' ν') := by
        by_cases hD0 : proof.sorted = []
        · right
          refine ⟨VPT.mk c.heap c.arena hs, _, ?_, V.toVW⟩
          have : tree = [] := by
            have e2 : tree = (Vn n proof.sorted 0).map fun y => cs.idxOf (0, y) := etree
            have hv : Vn n proof.sorted 0 = [] := by rw [hD0]; rfl
            rw [e2, hv]; rfl
          rw [this]
          have hn0 : hs ≠ [] := by intro e0; rw [e0] at hl'; exact ht hl'.symm
          unfold verifyProofTree
          rw [vptRows]
          cases hs with
          | nil => exact absurd rfl hn0
          | cons a l => rfl
        · have := verifyProofTree_ok (K := ctxOf s n f A proof hs) B (fun hh => by
            have := hh.1
            rw [this]
            rfl) hD0 V
          have e2 : tree = (Vn n proof.sorted 0).map fun y => cs.idxOf (0, y) := etree
          rw [e2]
          rcases this with ⟨t', ν', g1, d, te⟩ | ⟨t', ν', g1, -, W⟩
          · left
            refine ⟨t', g1, ?_⟩
            have tg := d.tgt
            rw [te, List.map_nil, List.append_nil] at tg
            have := congrArg List.length tg
            rw [List.length_map, List.length_map] at this
            exact this.le
          · exact .inr ⟨t', ν', g1, W⟩
      rcases key with ⟨t', g1, g2⟩ | ⟨t', ν', g1, W⟩
      · rw [g1] at hv
        simp only [ok_bind, Bool.not_true, Bool.false_eq_true, if_false] at hv
        rw [rememberTargets_ok _ _ _ g2, ok_bind] at hv
        cases hv
      · rw [g1] at hv
        simp only [ok_bind, Bool.not_false, if_true] at hv
        obtain ⟨heap', r1, -⟩ := restore_ok hK (arena_sib W.arena) W.shape I.ext W.old (fun r x hx => B.hold hx) I.rc I.recs
        rw [r1] at hv
        cases hv
    · exfalso
      rw [e1] at hv
      simp only [ok_bind, Bool.false_eq_true, if_false, pure_ok, Bool.not_false, if_true] at hv
      obtain ⟨heap', r1, -⟩ := restore_ok hK (arena_sib I.arena) I.shape I.ext (by
          intro r x p hp
          have hb := hK.shape.bnd _ _ _ hp
          rw [I.old p hb.2]
          exact hK.hashed _ _ _ hp) (fun r x hx => I.hold hK hx) I.rc I.recs
      rw [r1] at hv
      cases hv

/-- Whether `Verify` faults depends on the proof and the number of hashes only. -/
theorem verify_answers {s : Pollard H} {n : ℕ} {f : ℕ → H} {A : Addr} (h : Inv s n f A) (hn62 : n ≤ 2 ^ 62) (proof : BatchProof H)
    (hs hs' : List H) (hl : hs'.length = proof.targets.length) {r : Bool × Pollard H} (hv : verify s proof hs' = .ok r) :
    ∃ b s', verify s proof hs = .ok (b, s') := by
  cases e : verify s proof hs with
  | ok r => exact ⟨r.1, r.2, rfl⟩
  | error x =>
    exfalso
    have hc := verify_fault h hn62 proof hs e
    unfold verify at hv e
    by_cases hl2 : hs.length ≠ proof.targets.length
    · rw [if_pos hl2] at e; cases e
    rw [if_neg hl2] at e
    rw [if_neg (by simpa using hl)] at hv
    obtain ⟨b, e0, hb⟩ := checkSanity_ok (H := H) hn62 proof
    rw [h.ph.num, e0, ok_bind] at hv e
    cases b with
    | false => simp only [Bool.not_false, if_true] at e; cases e
    | true =>
      simp only [Bool.not_true, Bool.false_eq_true, if_false] at hv e
      by_cases ht : proof.targets.length = 0
      · rw [if_pos ht] at e; cases e
      rw [if_neg ht, hc] at hv
      simp only [error_bind] at hv
      cases hv

end Pol
end Utreexo
