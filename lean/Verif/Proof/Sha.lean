import Verif.Model.Sha512
import Verif.Spec.Sha512
import Verif.Proof.Codec
import Verif.Proof.Pos

/-! # The SHA-512 compression function -/

namespace Utreexo
namespace Sha

open Spec.Sha (Regs)

/-- The state words as registers of the specification. -/
def S8.regs (s : S8) : Regs := ⟨s.a, s.b, s.c, s.d, s.e, s.f, s.g, s.h⟩

theorem rotr_eq (x : Word) (n : ℕ) (h : n < 64) : Spec.Sha.rotr n x = x >>> n ||| x <<< (64 - n) := by
  unfold Spec.Sha.rotr
  rw [BitVec.rotateRight_def, Nat.mod_eq_of_lt h]

theorem ch_eq (x y z : Word) : Ch x y z = Spec.Sha.ch x y z := by
  ext i hi
  simp only [Ch, Spec.Sha.ch, BitVec.getElem_xor, BitVec.getElem_and, BitVec.getElem_not]
  cases x[i] <;> cases y[i] <;> cases z[i] <;> rfl

theorem maj_eq (x y z : Word) : Maj x y z = Spec.Sha.maj x y z := by
  ext i hi
  simp only [Maj, Spec.Sha.maj, BitVec.getElem_xor, BitVec.getElem_and, BitVec.getElem_or]
  cases x[i] <;> cases y[i] <;> cases z[i] <;> rfl

theorem Sigma0_eq (x : Word) : Sigma0 x = Spec.Sha.bigSigma0 x := by
  simp only [Sigma0, Spec.Sha.bigSigma0, rotr_eq x 28 (by omega), rotr_eq x 34 (by omega), rotr_eq x 39 (by omega)]

theorem Sigma1_eq (x : Word) : Sigma1 x = Spec.Sha.bigSigma1 x := by
  simp only [Sigma1, Spec.Sha.bigSigma1, rotr_eq x 14 (by omega), rotr_eq x 18 (by omega), rotr_eq x 41 (by omega)]

theorem sigma0_eq (x : Word) : sigma0 x = Spec.Sha.smallSigma0 x := by
  simp only [sigma0, Spec.Sha.smallSigma0, rotr_eq x 1 (by omega), rotr_eq x 8 (by omega), Spec.Sha.shr]

theorem sigma1_eq (x : Word) : sigma1 x = Spec.Sha.smallSigma1 x := by
  simp only [sigma1, Spec.Sha.smallSigma1, rotr_eq x 19 (by omega), rotr_eq x 61 (by omega), Spec.Sha.shr]

/-- One round, as one step of the specification. -/
theorem rnd_step {α : Type} (a b c d e f g h k w : Word) (cont : Word → Word → α) (P : α → Prop)
    (H : ∀ d' h', Spec.Sha.step ⟨a, b, c, d, e, f, g, h⟩ k w = ⟨h', a, b, c, d', e, f, g⟩ → P (cont d' h')) :
    P (rnd a b c d e f g h k w cont) := by
  unfold rnd
  apply H
  simp only [Spec.Sha.step, ← ch_eq, ← maj_eq, ← Sigma0_eq, ← Sigma1_eq]

theorem steps_cons (s : Regs) (k w : Word) (l : List (Word × Word)) :
    Spec.Sha.steps s ((k, w) :: l) = Spec.Sha.steps (Spec.Sha.step s k w) l := rfl

/-- A window of the message schedule. -/
def win (W : ℕ → Word) (t : ℕ) : W16 :=
  ⟨W t, W (t + 1), W (t + 2), W (t + 3), W (t + 4), W (t + 5), W (t + 6), W (t + 7), W (t + 8), W (t + 9), W (t + 10),
    W (t + 11), W (t + 12), W (t + 13), W (t + 14), W (t + 15)⟩

/-- The words of a window. -/
def winList (W : ℕ → Word) (t : ℕ) : List Word :=
  [W t, W (t + 1), W (t + 2), W (t + 3), W (t + 4), W (t + 5), W (t + 6), W (t + 7), W (t + 8), W (t + 9), W (t + 10),
    W (t + 11), W (t + 12), W (t + 13), W (t + 14), W (t + 15)]

/-- The recurrence of the message schedule as computed by the code. -/
def Rec (W : ℕ → Word) : Prop := ∀ t, W t + (sigma1 (W (t + 14)) + W (t + 9) + sigma0 (W (t + 1))) = W (t + 16)

def K0 : List Word :=
  [0x428a2f98d728ae22, 0x7137449123ef65cd, 0xb5c0fbcfec4d3b2f, 0xe9b5dba58189dbbc, 0x3956c25bf348b538, 0x59f111f1b605d019,
   0x923f82a4af194f9b, 0xab1c5ed5da6d8118, 0xd807aa98a3030242, 0x12835b0145706fbe, 0x243185be4ee4b28c, 0x550c7dc3d5ffb4e2,
   0x72be5d74f27b896f, 0x80deb1fe3b1696b1, 0x9bdc06a725c71235, 0xc19bf174cf692694]

theorem block0_eq (big : Bool) (s : S8) (chunk : List Byte) (W : ℕ → Word) (hW : ∀ i, i < 16 → readW big chunk (8 * i) = W i) :
    (block0 big s chunk).1.regs = Spec.Sha.steps s.regs (K0.zip (winList W 0)) ∧ (block0 big s chunk).2 = win W 0 := by
  have h0 := hW 0 (by omega)
  have h1 := hW 1 (by omega)
  have h2 := hW 2 (by omega)
  have h3 := hW 3 (by omega)
  have h4 := hW 4 (by omega)
  have h5 := hW 5 (by omega)
  have h6 := hW 6 (by omega)
  have h7 := hW 7 (by omega)
  have h8 := hW 8 (by omega)
  have h9 := hW 9 (by omega)
  have h10 := hW 10 (by omega)
  have h11 := hW 11 (by omega)
  have h12 := hW 12 (by omega)
  have h13 := hW 13 (by omega)
  have h14 := hW 14 (by omega)
  have h15 := hW 15 (by omega)
  norm_num only at h0 h1 h2 h3 h4 h5 h6 h7 h8 h9 h10 h11 h12 h13 h14 h15
  obtain ⟨a, b, c, d, e, f, g, h⟩ := s
  simp only [block0, S8.regs, K0, winList, win, List.zip_cons_cons, List.zip_nil_left,
    h0, h1, h2, h3, h4, h5, h6, h7, h8, h9, h10, h11, h12, h13, h14, h15, Nat.zero_add]
  iterate 16
    apply rnd_step (P := fun r : S8 × W16 => Regs.mk r.1.a r.1.b r.1.c r.1.d r.1.e r.1.f r.1.g r.1.h = _ ∧ r.2 = _)
    intro d' h' e'
    rw [steps_cons, e']
    clear e'
  exact ⟨rfl, rfl⟩

def K1 : List Word :=
  [0xe49b69c19ef14ad2, 0xefbe4786384f25e3, 0x0fc19dc68b8cd5b5, 0x240ca1cc77ac9c65, 0x2de92c6f592b0275, 0x4a7484aa6ea6e483,
   0x5cb0a9dcbd41fbd4, 0x76f988da831153b5, 0x983e5152ee66dfab, 0xa831c66d2db43210, 0xb00327c898fb213f, 0xbf597fc7beef0ee4,
   0xc6e00bf33da88fc2, 0xd5a79147930aa725, 0x06ca6351e003826f, 0x142929670a0e6e70]

def K2 : List Word :=
  [0x27b70a8546d22ffc, 0x2e1b21385c26c926, 0x4d2c6dfc5ac42aed, 0x53380d139d95b3df, 0x650a73548baf63de, 0x766a0abb3c77b2a8,
   0x81c2c92e47edaee6, 0x92722c851482353b, 0xa2bfe8a14cf10364, 0xa81a664bbc423001, 0xc24b8b70d0f89791, 0xc76c51a30654be30,
   0xd192e819d6ef5218, 0xd69906245565a910, 0xf40e35855771202a, 0x106aa07032bbd1b8]

def K3 : List Word :=
  [0x19a4c116b8d2d0c8, 0x1e376c085141ab53, 0x2748774cdf8eeb99, 0x34b0bcb5e19b48a8, 0x391c0cb3c5c95a63, 0x4ed8aa4ae3418acb,
   0x5b9cca4f7763e373, 0x682e6ff3d6b2b8a3, 0x748f82ee5defb2fc, 0x78a5636f43172f60, 0x84c87814a1f0ab72, 0x8cc702081a6439ec,
   0x90befffa23631e28, 0xa4506cebde82bde9, 0xbef9a3f7b2c67915, 0xc67178f2e372532b]

def K4 : List Word :=
  [0xca273eceea26619c, 0xd186b8c721c0c207, 0xeada7dd6cde0eb1e, 0xf57d4f7fee6ed178, 0x06f067aa72176fba, 0x0a637dc5a2c898a6,
   0x113f9804bef90dae, 0x1b710b35131c471b, 0x28db77f523047d84, 0x32caab7b40c72493, 0x3c9ebe0a15c9bebc, 0x431d67c49c100d4c,
   0x4cc5d4becb3e42b6, 0x597f299cfc657e2a, 0x5fcb6fab3ad6faec, 0x6c44198c4a475817]

theorem block1_eq (s : S8) (W : ℕ → Word) (hr : Rec W) (t : ℕ) :
    (block1 s (win W t)).1.regs = Spec.Sha.steps s.regs (K1.zip (winList W (t + 16))) ∧ (block1 s (win W t)).2 = win W (t + 16) := by
  have r0 : W t + (sigma1 (W (t + 14)) + W (t + 9) + sigma0 (W (t + 1))) = W (t + 16) := hr t
  have r1 : W (t + 1) + (sigma1 (W (t + 15)) + W (t + 10) + sigma0 (W (t + 2))) = W (t + 17) := hr (t + 1)
  have r2 : W (t + 2) + (sigma1 (W (t + 16)) + W (t + 11) + sigma0 (W (t + 3))) = W (t + 18) := hr (t + 2)
  have r3 : W (t + 3) + (sigma1 (W (t + 17)) + W (t + 12) + sigma0 (W (t + 4))) = W (t + 19) := hr (t + 3)
  have r4 : W (t + 4) + (sigma1 (W (t + 18)) + W (t + 13) + sigma0 (W (t + 5))) = W (t + 20) := hr (t + 4)
  have r5 : W (t + 5) + (sigma1 (W (t + 19)) + W (t + 14) + sigma0 (W (t + 6))) = W (t + 21) := hr (t + 5)
  have r6 : W (t + 6) + (sigma1 (W (t + 20)) + W (t + 15) + sigma0 (W (t + 7))) = W (t + 22) := hr (t + 6)
  have r7 : W (t + 7) + (sigma1 (W (t + 21)) + W (t + 16) + sigma0 (W (t + 8))) = W (t + 23) := hr (t + 7)
  have r8 : W (t + 8) + (sigma1 (W (t + 22)) + W (t + 17) + sigma0 (W (t + 9))) = W (t + 24) := hr (t + 8)
  have r9 : W (t + 9) + (sigma1 (W (t + 23)) + W (t + 18) + sigma0 (W (t + 10))) = W (t + 25) := hr (t + 9)
  have r10 : W (t + 10) + (sigma1 (W (t + 24)) + W (t + 19) + sigma0 (W (t + 11))) = W (t + 26) := hr (t + 10)
  have r11 : W (t + 11) + (sigma1 (W (t + 25)) + W (t + 20) + sigma0 (W (t + 12))) = W (t + 27) := hr (t + 11)
  have r12 : W (t + 12) + (sigma1 (W (t + 26)) + W (t + 21) + sigma0 (W (t + 13))) = W (t + 28) := hr (t + 12)
  have r13 : W (t + 13) + (sigma1 (W (t + 27)) + W (t + 22) + sigma0 (W (t + 14))) = W (t + 29) := hr (t + 13)
  have r14 : W (t + 14) + (sigma1 (W (t + 28)) + W (t + 23) + sigma0 (W (t + 15))) = W (t + 30) := hr (t + 14)
  have r15 : W (t + 15) + (sigma1 (W (t + 29)) + W (t + 24) + sigma0 (W (t + 16))) = W (t + 31) := hr (t + 15)
  obtain ⟨a, b, c, d, e, f, g, h⟩ := s
  simp only [block1, S8.regs, K1, winList, win, List.zip_cons_cons, List.zip_nil_left, Nat.add_assoc, Nat.reduceAdd,
    r0, r1, r2, r3, r4, r5, r6, r7, r8, r9, r10, r11, r12, r13, r14, r15]
  iterate 16
    apply rnd_step (P := fun r : S8 × W16 => Regs.mk r.1.a r.1.b r.1.c r.1.d r.1.e r.1.f r.1.g r.1.h = _ ∧ r.2 = _)
    intro d' h' e'
    rw [steps_cons, e']
    clear e'
  exact ⟨rfl, rfl⟩

theorem block2_eq (s : S8) (W : ℕ → Word) (hr : Rec W) (t : ℕ) :
    (block2 s (win W t)).1.regs = Spec.Sha.steps s.regs (K2.zip (winList W (t + 16))) ∧ (block2 s (win W t)).2 = win W (t + 16) := by
  have r0 : W t + (sigma1 (W (t + 14)) + W (t + 9) + sigma0 (W (t + 1))) = W (t + 16) := hr t
  have r1 : W (t + 1) + (sigma1 (W (t + 15)) + W (t + 10) + sigma0 (W (t + 2))) = W (t + 17) := hr (t + 1)
  have r2 : W (t + 2) + (sigma1 (W (t + 16)) + W (t + 11) + sigma0 (W (t + 3))) = W (t + 18) := hr (t + 2)
  have r3 : W (t + 3) + (sigma1 (W (t + 17)) + W (t + 12) + sigma0 (W (t + 4))) = W (t + 19) := hr (t + 3)
  have r4 : W (t + 4) + (sigma1 (W (t + 18)) + W (t + 13) + sigma0 (W (t + 5))) = W (t + 20) := hr (t + 4)
  have r5 : W (t + 5) + (sigma1 (W (t + 19)) + W (t + 14) + sigma0 (W (t + 6))) = W (t + 21) := hr (t + 5)
  have r6 : W (t + 6) + (sigma1 (W (t + 20)) + W (t + 15) + sigma0 (W (t + 7))) = W (t + 22) := hr (t + 6)
  have r7 : W (t + 7) + (sigma1 (W (t + 21)) + W (t + 16) + sigma0 (W (t + 8))) = W (t + 23) := hr (t + 7)
  have r8 : W (t + 8) + (sigma1 (W (t + 22)) + W (t + 17) + sigma0 (W (t + 9))) = W (t + 24) := hr (t + 8)
  have r9 : W (t + 9) + (sigma1 (W (t + 23)) + W (t + 18) + sigma0 (W (t + 10))) = W (t + 25) := hr (t + 9)
  have r10 : W (t + 10) + (sigma1 (W (t + 24)) + W (t + 19) + sigma0 (W (t + 11))) = W (t + 26) := hr (t + 10)
  have r11 : W (t + 11) + (sigma1 (W (t + 25)) + W (t + 20) + sigma0 (W (t + 12))) = W (t + 27) := hr (t + 11)
  have r12 : W (t + 12) + (sigma1 (W (t + 26)) + W (t + 21) + sigma0 (W (t + 13))) = W (t + 28) := hr (t + 12)
  have r13 : W (t + 13) + (sigma1 (W (t + 27)) + W (t + 22) + sigma0 (W (t + 14))) = W (t + 29) := hr (t + 13)
  have r14 : W (t + 14) + (sigma1 (W (t + 28)) + W (t + 23) + sigma0 (W (t + 15))) = W (t + 30) := hr (t + 14)
  have r15 : W (t + 15) + (sigma1 (W (t + 29)) + W (t + 24) + sigma0 (W (t + 16))) = W (t + 31) := hr (t + 15)
  obtain ⟨a, b, c, d, e, f, g, h⟩ := s
  simp only [block2, S8.regs, K2, winList, win, List.zip_cons_cons, List.zip_nil_left, Nat.add_assoc, Nat.reduceAdd,
    r0, r1, r2, r3, r4, r5, r6, r7, r8, r9, r10, r11, r12, r13, r14, r15]
  iterate 16
    apply rnd_step (P := fun r : S8 × W16 => Regs.mk r.1.a r.1.b r.1.c r.1.d r.1.e r.1.f r.1.g r.1.h = _ ∧ r.2 = _)
    intro d' h' e'
    rw [steps_cons, e']
    clear e'
  exact ⟨rfl, rfl⟩

theorem block3_eq (s : S8) (W : ℕ → Word) (hr : Rec W) (t : ℕ) :
    (block3 s (win W t)).1.regs = Spec.Sha.steps s.regs (K3.zip (winList W (t + 16))) ∧ (block3 s (win W t)).2 = win W (t + 16) := by
  have r0 : W t + (sigma1 (W (t + 14)) + W (t + 9) + sigma0 (W (t + 1))) = W (t + 16) := hr t
  have r1 : W (t + 1) + (sigma1 (W (t + 15)) + W (t + 10) + sigma0 (W (t + 2))) = W (t + 17) := hr (t + 1)
  have r2 : W (t + 2) + (sigma1 (W (t + 16)) + W (t + 11) + sigma0 (W (t + 3))) = W (t + 18) := hr (t + 2)
  have r3 : W (t + 3) + (sigma1 (W (t + 17)) + W (t + 12) + sigma0 (W (t + 4))) = W (t + 19) := hr (t + 3)
  have r4 : W (t + 4) + (sigma1 (W (t + 18)) + W (t + 13) + sigma0 (W (t + 5))) = W (t + 20) := hr (t + 4)
  have r5 : W (t + 5) + (sigma1 (W (t + 19)) + W (t + 14) + sigma0 (W (t + 6))) = W (t + 21) := hr (t + 5)
  have r6 : W (t + 6) + (sigma1 (W (t + 20)) + W (t + 15) + sigma0 (W (t + 7))) = W (t + 22) := hr (t + 6)
  have r7 : W (t + 7) + (sigma1 (W (t + 21)) + W (t + 16) + sigma0 (W (t + 8))) = W (t + 23) := hr (t + 7)
  have r8 : W (t + 8) + (sigma1 (W (t + 22)) + W (t + 17) + sigma0 (W (t + 9))) = W (t + 24) := hr (t + 8)
  have r9 : W (t + 9) + (sigma1 (W (t + 23)) + W (t + 18) + sigma0 (W (t + 10))) = W (t + 25) := hr (t + 9)
  have r10 : W (t + 10) + (sigma1 (W (t + 24)) + W (t + 19) + sigma0 (W (t + 11))) = W (t + 26) := hr (t + 10)
  have r11 : W (t + 11) + (sigma1 (W (t + 25)) + W (t + 20) + sigma0 (W (t + 12))) = W (t + 27) := hr (t + 11)
  have r12 : W (t + 12) + (sigma1 (W (t + 26)) + W (t + 21) + sigma0 (W (t + 13))) = W (t + 28) := hr (t + 12)
  have r13 : W (t + 13) + (sigma1 (W (t + 27)) + W (t + 22) + sigma0 (W (t + 14))) = W (t + 29) := hr (t + 13)
  have r14 : W (t + 14) + (sigma1 (W (t + 28)) + W (t + 23) + sigma0 (W (t + 15))) = W (t + 30) := hr (t + 14)
  have r15 : W (t + 15) + (sigma1 (W (t + 29)) + W (t + 24) + sigma0 (W (t + 16))) = W (t + 31) := hr (t + 15)
  obtain ⟨a, b, c, d, e, f, g, h⟩ := s
  simp only [block3, S8.regs, K3, winList, win, List.zip_cons_cons, List.zip_nil_left, Nat.add_assoc, Nat.reduceAdd,
    r0, r1, r2, r3, r4, r5, r6, r7, r8, r9, r10, r11, r12, r13, r14, r15]
  iterate 16
    apply rnd_step (P := fun r : S8 × W16 => Regs.mk r.1.a r.1.b r.1.c r.1.d r.1.e r.1.f r.1.g r.1.h = _ ∧ r.2 = _)
    intro d' h' e'
    rw [steps_cons, e']
    clear e'
  exact ⟨rfl, rfl⟩

theorem block4_eq (s : S8) (W : ℕ → Word) (hr : Rec W) (t : ℕ) :
    (block4 s (win W t)).1.regs = Spec.Sha.steps s.regs (K4.zip (winList W (t + 16))) := by
  have r0 : W t + (sigma1 (W (t + 14)) + W (t + 9) + sigma0 (W (t + 1))) = W (t + 16) := hr t
  have r1 : W (t + 1) + (sigma1 (W (t + 15)) + W (t + 10) + sigma0 (W (t + 2))) = W (t + 17) := hr (t + 1)
  have r2 : W (t + 2) + (sigma1 (W (t + 16)) + W (t + 11) + sigma0 (W (t + 3))) = W (t + 18) := hr (t + 2)
  have r3 : W (t + 3) + (sigma1 (W (t + 17)) + W (t + 12) + sigma0 (W (t + 4))) = W (t + 19) := hr (t + 3)
  have r4 : W (t + 4) + (sigma1 (W (t + 18)) + W (t + 13) + sigma0 (W (t + 5))) = W (t + 20) := hr (t + 4)
  have r5 : W (t + 5) + (sigma1 (W (t + 19)) + W (t + 14) + sigma0 (W (t + 6))) = W (t + 21) := hr (t + 5)
  have r6 : W (t + 6) + (sigma1 (W (t + 20)) + W (t + 15) + sigma0 (W (t + 7))) = W (t + 22) := hr (t + 6)
  have r7 : W (t + 7) + (sigma1 (W (t + 21)) + W (t + 16) + sigma0 (W (t + 8))) = W (t + 23) := hr (t + 7)
  have r8 : W (t + 8) + (sigma1 (W (t + 22)) + W (t + 17) + sigma0 (W (t + 9))) = W (t + 24) := hr (t + 8)
  have r9 : W (t + 9) + (sigma1 (W (t + 23)) + W (t + 18) + sigma0 (W (t + 10))) = W (t + 25) := hr (t + 9)
  have r10 : W (t + 10) + (sigma1 (W (t + 24)) + W (t + 19) + sigma0 (W (t + 11))) = W (t + 26) := hr (t + 10)
  have r11 : W (t + 11) + (sigma1 (W (t + 25)) + W (t + 20) + sigma0 (W (t + 12))) = W (t + 27) := hr (t + 11)
  have r12 : W (t + 12) + (sigma1 (W (t + 26)) + W (t + 21) + sigma0 (W (t + 13))) = W (t + 28) := hr (t + 12)
  have r13 : W (t + 13) + (sigma1 (W (t + 27)) + W (t + 22) + sigma0 (W (t + 14))) = W (t + 29) := hr (t + 13)
  have r14 : W (t + 14) + (sigma1 (W (t + 28)) + W (t + 23) + sigma0 (W (t + 15))) = W (t + 30) := hr (t + 14)
  have r15 : W (t + 15) + (sigma1 (W (t + 29)) + W (t + 24) + sigma0 (W (t + 16))) = W (t + 31) := hr (t + 15)
  have r14' : W (t + 14) + sigma1 (W (t + 28)) + W (t + 23) + sigma0 (W (t + 15)) = W (t + 30) := by
    rw [← r14]; simp only [BitVec.add_assoc]
  have r15' : W (t + 15) + sigma1 (W (t + 29)) + W (t + 24) + sigma0 (W (t + 16)) = W (t + 31) := by
    rw [← r15]; simp only [BitVec.add_assoc]
  obtain ⟨a, b, c, d, e, f, g, h⟩ := s
  simp only [block4, S8.regs, K4, winList, win, List.zip_cons_cons, List.zip_nil_left, Nat.add_assoc, Nat.reduceAdd,
    r0, r1, r2, r3, r4, r5, r6, r7, r8, r9, r10, r11, r12, r13, r14', r15']
  iterate 16
    apply rnd_step (P := fun r : S8 × W16 => Regs.mk r.1.a r.1.b r.1.c r.1.d r.1.e r.1.f r.1.g r.1.h = _)
    intro d' h' e'
    rw [steps_cons, e']
    clear e'
  rfl

set_option maxRecDepth 100000 in
theorem K_eq : Spec.Sha.K = K0 ++ (K1 ++ (K2 ++ (K3 ++ K4))) := by decide +kernel

theorem schedule_length (ws : List Word) (n : ℕ) : (Spec.Sha.schedule ws n).length = ws.length + n := by
  induction n with
  | zero => rfl
  | succ n ih => rw [Spec.Sha.schedule, List.length_append, ih]; rfl

/-- The message schedule as a sequence. -/
def sw (ws : List Word) (t : ℕ) : Word := (Spec.Sha.schedule ws t).getD t 0

theorem schedule_get (ws : List Word) (h : ws.length = 16) (n t : ℕ) (ht : t < n + 16) :
    (Spec.Sha.schedule ws n).getD t 0 = sw ws t := by
  have step : ∀ n t, t < n + 16 → (Spec.Sha.schedule ws (n + 1)).getD t 0 = (Spec.Sha.schedule ws n).getD t 0 := by
    intro n t ht
    rw [Spec.Sha.schedule]
    rw [List.getD_eq_getElem?_getD, List.getElem?_append_left (by rw [schedule_length]; omega), ← List.getD_eq_getElem?_getD]
  have up : ∀ k n t, t < n + 16 → (Spec.Sha.schedule ws (n + k)).getD t 0 = (Spec.Sha.schedule ws n).getD t 0 := by
    intro k
    induction k with
    | zero => intro n t _; rfl
    | succ k ih => intro n t ht; rw [← Nat.add_assoc, step _ _ (by omega), ih _ _ ht]
  unfold sw
  rcases Nat.le_total n t with h1 | h1
  · have := up (t - n) n t ht
    rw [show n + (t - n) = t by omega] at this
    exact this.symm
  · have := up (n - t) t t (by omega)
    rw [show t + (n - t) = n by omega] at this
    exact this

theorem sw_rec (ws : List Word) (h : ws.length = 16) : Rec (sw ws) := by
  intro t
  have e : sw ws (t + 16) = (Spec.Sha.schedule ws (t + 1)).getD (t + 16) 0 := (schedule_get ws h _ _ (by omega)).symm
  rw [e, Spec.Sha.schedule]
  rw [List.getD_eq_getElem?_getD, List.getElem?_append_right (by rw [schedule_length]; omega), schedule_length,
    show t + 16 - (ws.length + t) = 0 by omega]
  simp only [List.getElem?_cons_zero, Option.getD_some]
  rw [show t + 16 - 2 = t + 14 by omega, show t + 16 - 7 = t + 9 by omega, show t + 16 - 15 = t + 1 by omega,
    show t + 16 - 16 = t by omega, schedule_get ws h t _ (by omega), schedule_get ws h t _ (by omega),
    schedule_get ws h t _ (by omega), schedule_get ws h t _ (by omega), ← sigma1_eq, ← sigma0_eq, BitVec.add_comm]

theorem schedule_eq (ws : List Word) (h : ws.length = 16) : Spec.Sha.schedule ws 64 =
    winList (sw ws) 0 ++ (winList (sw ws) 16 ++ (winList (sw ws) 32 ++ (winList (sw ws) 48 ++ winList (sw ws) 64))) := by
  have e : winList (sw ws) 0 ++ (winList (sw ws) 16 ++ (winList (sw ws) 32 ++ (winList (sw ws) 48 ++ winList (sw ws) 64))) =
      (List.range 80).map (sw ws) := rfl
  rw [e]
  apply List.ext_getElem
  · rw [schedule_length, h]; simp
  · intro i h1 h2
    have hi : i < 80 := by simpa using h2
    rw [List.getElem_map, List.getElem_range, ← schedule_get ws h 64 i (by omega), List.getD_eq_getElem?_getD,
      List.getElem?_eq_getElem h1]; rfl

theorem steps_append (s : Regs) (l l' : List (Word × Word)) :
    Spec.Sha.steps s (l ++ l') = Spec.Sha.steps (Spec.Sha.steps s l) l' := by
  unfold Spec.Sha.steps; rw [List.foldl_append]

theorem readW_eq (big : Bool) (chunk : List Byte) (h : chunk.length = 128) (i : ℕ) (hi : i < 16) :
    readW big chunk (8 * i) = BitVec.ofNat 64 (Spec.beValue ((chunk.drop (8 * i)).take 8)) := by
  have hl : ((chunk.drop (8 * i)).take 8).length = 8 := by simp; omega
  rw [← Codec.readBE64_eq big _ hl]
  unfold readW Codec.readBE64
  rw [List.take_take]; rfl

theorem transform_eq (big : Bool) (s : S8) (chunk : List Byte) (h : chunk.length = 128) :
    (transform big s chunk).regs = Spec.Sha.compress s.regs chunk := by
  have hl : (Spec.Sha.blockWords chunk).length = 16 := by simp [Spec.Sha.blockWords]
  have hr := sw_rec _ hl
  have h0 : ∀ i, i < 16 → readW big chunk (8 * i) = sw (Spec.Sha.blockWords chunk) i := by
    intro i hi
    rw [readW_eq big chunk h i hi, ← schedule_get _ hl 0 i (by omega)]
    rw [Spec.Sha.schedule, Spec.Sha.blockWords, List.getD_eq_getElem?_getD, List.getElem?_map, List.getElem?_range hi]; rfl
  obtain ⟨a1, a2⟩ := block0_eq big s chunk _ h0
  obtain ⟨b1, b2⟩ := block1_eq (block0 big s chunk).1 _ hr 0
  obtain ⟨c1, c2⟩ := block2_eq (block1 (block0 big s chunk).1 (win (sw (Spec.Sha.blockWords chunk)) 0)).1 _ hr 16
  obtain ⟨d1, d2⟩ := block3_eq (block2 (block1 (block0 big s chunk).1 (win (sw (Spec.Sha.blockWords chunk)) 0)).1
    (win (sw (Spec.Sha.blockWords chunk)) 16)).1 _ hr 32
  have e1 := block4_eq (block3 (block2 (block1 (block0 big s chunk).1 (win (sw (Spec.Sha.blockWords chunk)) 0)).1
    (win (sw (Spec.Sha.blockWords chunk)) 16)).1 (win (sw (Spec.Sha.blockWords chunk)) 32)).1 _ hr 48
  have key : (block4 (block3 (block2 (block1 (block0 big s chunk).1 (block0 big s chunk).2).1
      (block1 (block0 big s chunk).1 (block0 big s chunk).2).2).1
      (block2 (block1 (block0 big s chunk).1 (block0 big s chunk).2).1
      (block1 (block0 big s chunk).1 (block0 big s chunk).2).2).2).1
      (block3 (block2 (block1 (block0 big s chunk).1 (block0 big s chunk).2).1
      (block1 (block0 big s chunk).1 (block0 big s chunk).2).2).1
      (block2 (block1 (block0 big s chunk).1 (block0 big s chunk).2).1
      (block1 (block0 big s chunk).1 (block0 big s chunk).2).2).2).2).1.regs =
      Spec.Sha.steps s.regs (Spec.Sha.K.zip (Spec.Sha.schedule (Spec.Sha.blockWords chunk) 64)) := by
    rw [a2, b2, c2, d2, e1, d1, c1, b1, a1, K_eq, schedule_eq _ hl, List.zip_append (show K0.length = (winList _ _).length from rfl),
      List.zip_append (show K1.length = (winList _ _).length from rfl), List.zip_append (show K2.length = (winList _ _).length from rfl),
      List.zip_append (show K3.length = (winList _ _).length from rfl), steps_append, steps_append, steps_append, steps_append]
  unfold transform Spec.Sha.compress
  rw [← key]
  rfl

/-! ## Streaming -/

theorem compressBlocks_succ (s : Regs) (a : ℕ) (m : List Byte) : Spec.Sha.compressBlocks s (a + 1) m =
    Spec.Sha.compress (Spec.Sha.compressBlocks s a m) ((m.drop (128 * a)).take 128) := by
  unfold Spec.Sha.compressBlocks
  rw [List.range_succ, List.foldl_append, List.foldl_cons, List.foldl_nil]

theorem compressBlocks_append (s : Regs) (a : ℕ) (m m' : List Byte) (h : 128 * a ≤ m.length) :
    Spec.Sha.compressBlocks s a (m ++ m') = Spec.Sha.compressBlocks s a m := by
  induction a with
  | zero => simp only [Spec.Sha.compressBlocks, List.range_zero, List.foldl_nil]
  | succ a ih =>
    rw [compressBlocks_succ, compressBlocks_succ, ih (by omega), List.drop_append_of_le_length (by omega),
      List.take_append_of_le_length (by simp; omega)]

/-- The hasher has absorbed the message `m` from the initial value `iv`. -/
structure Absorbed (iv : Regs) (m : List Byte) (x : Hasher) : Prop where
  buf : x.buf.length = 128
  bytes : x.bytes = m.length % 2 ^ 64
  state : x.s.regs = Spec.Sha.compressBlocks iv (m.length / 128) m
  rest : x.buf.take (m.length % 128) = m.drop (128 * (m.length / 128))

theorem memWrite_ok {buf : List Byte} {off : ℕ} {bs : List Byte} (h : off + bs.length ≤ buf.length) :
    memWrite buf off bs = .ok (buf.take off ++ bs ++ buf.drop (off + bs.length)) := by
  unfold memWrite; rw [if_pos h]

theorem wrap64_mod (a b : ℕ) : wrap64 (a % 2 ^ 64 + b) = (a + b) % 2 ^ 64 := Nat.mod_add_mod a (2 ^ 64) b

theorem chunkLoop_ok (big : Bool) (iv : Regs) : ∀ (fuel : ℕ) (m data : List Byte) (s : S8), data.length ≤ fuel →
    m.length % 128 = 0 → s.regs = Spec.Sha.compressBlocks iv (m.length / 128) m →
    ∃ (m' data' : List Byte) (s' : S8), chunkLoop big fuel s (m.length % 2 ^ 64) data = (s', m'.length % 2 ^ 64, data') ∧ m ++ data = m' ++ data' ∧
      data'.length < 128 ∧ m'.length % 128 = 0 ∧ s'.regs = Spec.Sha.compressBlocks iv (m'.length / 128) m' := by
  intro fuel
  induction fuel with
  | zero =>
    intro m data s h1 h2 h4
    have : data = [] := List.eq_nil_of_length_eq_zero (by omega)
    subst this
    exact ⟨m, [], s, rfl, rfl, by simp, h2, h4⟩
  | succ fuel ih =>
    intro m data s h1 h2 h4
    rw [chunkLoop]
    by_cases h : data.length ≥ 128
    · rw [if_pos h]
      have hw : wrap64 (m.length % 2 ^ 64 + 128) = (m ++ data.take 128).length % 2 ^ 64 := by
        have : (m ++ data.take 128).length = m.length + 128 := by simp; omega
        rw [this, wrap64_mod]
      rw [hw]
      obtain ⟨m', data', s', e1, e2, e3, e4, e5⟩ := ih (m ++ data.take 128) (data.drop 128) (transform big s (data.take 128))
        (by simp; omega) (by simp; omega) (by
          rw [transform_eq big s _ (by simp; omega), h4]
          have hl : (m ++ data.take 128).length / 128 = m.length / 128 + 1 := by simp; omega
          rw [hl, compressBlocks_succ, compressBlocks_append _ _ _ _ (by omega)]
          have hd : (m ++ data.take 128).drop (128 * (m.length / 128)) = data.take 128 := by
            rw [show 128 * (m.length / 128) = m.length by omega, List.drop_left]
          rw [hd, List.take_take, Nat.min_self])
      refine ⟨m', data', s', e1, ?_, e3, e4, e5⟩
      rw [← e2, List.append_assoc, List.take_append_drop]
    · rw [if_neg h]
      exact ⟨m, data, s, rfl, rfl, by omega, h2, h4⟩

theorem write_ok (big : Bool) {iv : Regs} {m : List Byte} {x : Hasher} (hx : Absorbed iv m x) (data : List Byte) :
    ∃ x', write big x data = .ok x' ∧ Absorbed iv (m ++ data) x' := by
  obtain ⟨hb, hby, hst, hrs⟩ := hx
  have hmod := Nat.mod_lt m.length (show 0 < 128 by omega)
  have hdm := Nat.div_add_mod m.length 128
  -- the last part of `write`
  have fin : ∀ (m1 data1 : List Byte) (x1 : Hasher), m1.length % 128 = 0 →
      Absorbed iv m1 x1 → ∃ x', (do
        let (s, bytes, data) := chunkLoop big data1.length x1.s x1.bytes data1
        if data.length > 0 then
          let buf ← memWrite x1.buf 0 data
          return { s := s, buf := buf, bytes := wrap64 (bytes + data.length) }
        else return { x1 with s := s, bytes := bytes } : Res Hasher) = .ok x' ∧ Absorbed iv (m1 ++ data1) x' := by
    intro m1 data1 x1 h1 hx1
    obtain ⟨m', data', s', e1, e2, e3, e4, e5⟩ := chunkLoop_ok big iv data1.length m1 data1 x1.s le_rfl h1 hx1.state
    have hlen2 : m1.length + data1.length = m'.length + data'.length := by
      rw [← List.length_append, e2, List.length_append]
    rw [hx1.bytes, e1, e2]
    simp only
    have hd : (m' ++ data').length / 128 = m'.length / 128 := by rw [List.length_append]; omega
    have hm : (m' ++ data').length % 128 = data'.length := by rw [List.length_append]; omega
    have hbuf := hx1.buf
    by_cases h : data'.length > 0
    · rw [if_pos h, memWrite_ok (by omega), ok_bind]
      refine ⟨_, rfl, ⟨?_, ?_, ?_, ?_⟩⟩
      · simp; omega
      · simp only [List.length_append, wrap64_mod]
      · rw [hd, compressBlocks_append _ _ _ _ (by omega)]; exact e5
      · rw [hd, hm, show 128 * (m'.length / 128) = m'.length by omega, List.drop_left]
        simp only [List.take_zero, List.nil_append]
        rw [List.take_left]
    · rw [if_neg h]
      have : data' = [] := List.eq_nil_of_length_eq_zero (by omega)
      subst this
      rw [List.append_nil]
      refine ⟨_, rfl, ⟨hbuf, rfl, e5, ?_⟩⟩
      rw [e4, show 128 * (m'.length / 128) = m'.length by omega, List.drop_length, List.take_zero]
  unfold write
  rw [hby, show m.length % 2 ^ 64 % 128 = m.length % 128 by omega]
  by_cases hc : m.length % 128 ≠ 0 ∧ m.length % 128 + data.length ≥ 128
  · simp only [if_pos hc]
    have ht : (data.take (128 - m.length % 128)).length = 128 - m.length % 128 := by rw [List.length_take]; omega
    rw [memWrite_ok (by omega)]
    simp only [ok_bind, pure_ok]
    rw [ht, List.drop_eq_nil_of_le (as := x.buf) (by omega), List.append_nil, hrs]
    have hl1 : (m ++ data.take (128 - m.length % 128)).length = m.length + (128 - m.length % 128) := by
      rw [List.length_append, ht]
    have hlb : (m.drop (128 * (m.length / 128)) ++ data.take (128 - m.length % 128)).length = 128 := by
      rw [List.length_append, ht, List.length_drop]; omega
    have hq : (m.length + (128 - m.length % 128)) / 128 = m.length / 128 + 1 := by omega
    have hz : (m.length + (128 - m.length % 128)) % 128 = 0 := by omega
    obtain ⟨x', f1, f2⟩ := fin (m ++ data.take (128 - m.length % 128)) (data.drop (128 - m.length % 128))
      { s := transform big x.s (m.drop (128 * (m.length / 128)) ++ data.take (128 - m.length % 128))
        buf := m.drop (128 * (m.length / 128)) ++ data.take (128 - m.length % 128)
        bytes := wrap64 (m.length % 2 ^ 64 + (128 - m.length % 128)) } (by rw [hl1, hz])
      ⟨hlb, by rw [hl1, wrap64_mod], by
        rw [transform_eq big _ _ hlb, hst, hl1, hq, compressBlocks_succ, compressBlocks_append _ _ _ _ (by omega),
          List.drop_append_of_le_length (by omega)]
        rw [List.take_of_length_le (le_of_eq hlb)], by
        rw [hl1, hz, List.take_zero, List.drop_eq_nil_of_le (by rw [hl1]; omega)]⟩
    refine ⟨x', f1, ?_⟩
    rw [List.append_assoc, List.take_append_drop] at f2
    exact f2
  · simp only [if_neg hc, pure_ok, ok_bind]
    by_cases hb0 : m.length % 128 = 0
    · rw [hb0]
      exact fin m data x hb0 ⟨hb, hby, hst, hrs⟩
    · have hlt : data.length < 128 - m.length % 128 := by
        by_contra h; exact hc ⟨hb0, by omega⟩
      have hcl : ∀ fuel, chunkLoop big fuel x.s (m.length % 2 ^ 64) data = (x.s, m.length % 2 ^ 64, data) := by
        intro fuel
        cases fuel with
        | zero => rfl
        | succ fuel => rw [chunkLoop, if_neg (by omega)]
      rw [hby, hcl]
      simp only
      have hd : (m ++ data).length / 128 = m.length / 128 := by rw [List.length_append]; omega
      have hm : (m ++ data).length % 128 = m.length % 128 + data.length := by rw [List.length_append]; omega
      by_cases h : data.length > 0
      · rw [if_pos h, memWrite_ok (by omega), ok_bind]
        refine ⟨_, rfl, ⟨?_, ?_, ?_, ?_⟩⟩
        · simp; omega
        · simp only [List.length_append, wrap64_mod]
        · rw [hd, compressBlocks_append _ _ _ _ (by omega)]; exact hst
        · rw [hd, hm, hrs, List.drop_append_of_le_length (by omega)]
          rw [List.take_append_of_le_length (by simp; omega), List.take_of_length_le (by simp; omega)]
      · rw [if_neg h]
        have : data = [] := List.eq_nil_of_length_eq_zero (by omega)
        subst this
        rw [List.append_nil]
        exact ⟨_, rfl, ⟨hb, rfl, hst, hrs⟩⟩

theorem toBytes_eq (k x : ℕ) : Spec.Sha.toBytes k x = (Codec.leBytes k x).reverse := by
  induction k generalizing x with
  | zero => rfl
  | succ k ih =>
    rw [Spec.Sha.toBytes, Codec.leBytes, List.reverse_cons, ih]
    congr 2
    apply BitVec.eq_of_toNat_eq
    simp

theorem writeBE64_toBytes (big : Bool) (x : Word) : Codec.writeBE64 big x = Spec.Sha.toBytes 8 x.toNat := by
  rw [Codec.writeBE64_eq, toBytes_eq]

theorem toBytes_high (k j x : ℕ) (h : x < 2 ^ (8 * k)) :
    Spec.Sha.toBytes (j + k) x = List.replicate j 0#8 ++ Spec.Sha.toBytes k x := by
  induction k generalizing x with
  | zero =>
    have hx : x = 0 := by simpa using h
    subst hx
    simp only [Spec.Sha.toBytes, List.append_nil, Nat.add_zero]
    induction j with
    | zero => rfl
    | succ j ih =>
      rw [Spec.Sha.toBytes, Nat.zero_div, List.replicate_succ', ih]
  | succ k ih =>
    rw [← Nat.add_assoc, Spec.Sha.toBytes, Spec.Sha.toBytes, ih _ (by
      rw [Nat.div_lt_iff_lt_mul (by omega)]
      rw [show 8 * (k + 1) = 8 * k + 8 by omega, pow_add] at h; exact h), List.append_assoc]

theorem zeros_eq (len : ℕ) :
    (((List.range 128).find? fun k => (len + 1 + k) % 128 == 112).getD 0) = (239 - len % 128) % 128 := by
  have h : ∀ r, r < 128 → (((List.range 128).find? fun k => (r + 1 + k) % 128 == 112).getD 0) = (239 - r) % 128 := by
    decide +kernel
  rw [← h (len % 128) (Nat.mod_lt _ (by omega))]
  congr 2
  funext k
  congr 1
  omega

theorem padLow_eq (big : Bool) (m : List Byte) : Spec.Sha.padLow m =
    m ++ pad.take (1 + (239 - m.length % 128) % 128) ++
      (List.replicate 8 0#8 ++ Codec.writeBE64 big (BitVec.ofNat 64 (m.length % 2 ^ 64) <<< 3)) := by
  unfold Spec.Sha.padLow
  simp only [zeros_eq]
  rw [writeBE64_toBytes]
  have h1 : (BitVec.ofNat 64 (m.length % 2 ^ 64) <<< 3).toNat = 8 * m.length % 2 ^ 64 := by
    rw [BitVec.toNat_shiftLeft, BitVec.toNat_ofNat, Nat.shiftLeft_eq]
    omega
  rw [h1, show (16 : ℕ) = 8 + 8 from rfl, toBytes_high 8 8 _ (by omega)]
  congr 1
  rw [List.append_assoc]
  congr 1
  unfold pad
  rw [Nat.add_comm 1, List.take_succ_cons, List.take_replicate, Nat.min_eq_left (by omega)]
  rfl

theorem padLow_short (m : List Byte) (h : m.length < 2 ^ 61) : Spec.Sha.padLow m = Spec.Sha.pad m := by
  unfold Spec.Sha.padLow Spec.Sha.pad
  rw [Nat.mod_eq_of_lt (by omega)]

theorem finish_low (big : Bool) {iv : Regs} {m : List Byte} {x : Hasher} (hx : Absorbed iv m x) :
    ∃ x', finish big x = .ok x' ∧ x'.s.regs = Spec.Sha.hashLow iv m := by
  have hpl : pad.length = 128 := by simp [pad]
  unfold finish
  rw [hx.bytes, show m.length % 2 ^ 64 % 128 = m.length % 128 by omega]
  simp only
  unfold memRead
  rw [if_pos (by omega), ok_bind, List.drop_zero]
  obtain ⟨x1, a1, a2⟩ := write_ok big hx (pad.take (1 + (239 - m.length % 128) % 128))
  rw [a1, ok_bind]
  obtain ⟨x2, b1, b2⟩ := write_ok big a2
    (List.replicate 8 0#8 ++ Codec.writeBE64 big (BitVec.ofNat 64 (m.length % 2 ^ 64) <<< 3))
  refine ⟨x2, b1, ?_⟩
  rw [b2.state, ← padLow_eq big m]
  rfl

theorem finish_ok (big : Bool) {iv : Regs} {m : List Byte} {x : Hasher} (hx : Absorbed iv m x) (h : m.length < 2 ^ 61) :
    ∃ x', finish big x = .ok x' ∧ x'.s.regs = Spec.Sha.hashFrom iv m := by
  obtain ⟨x', a1, a2⟩ := finish_low big hx
  refine ⟨x', a1, ?_⟩
  rw [a2]
  unfold Spec.Sha.hashLow Spec.Sha.hashFrom
  rw [padLow_short m h]

theorem new_absorbed (iv : S8) (junk : List Byte) (hj : junk.length = 128) :
    Absorbed iv.regs [] { s := iv, buf := junk, bytes := 0 } :=
  ⟨hj, rfl, rfl, rfl⟩

set_option maxRecDepth 100000 in
theorem init512_eq : init512.regs = Spec.Sha.iv512 := by decide +kernel

set_option maxRecDepth 100000 in
theorem init256_eq : init256.regs = Spec.Sha.iv256 := by decide +kernel

theorem digest_eq (big : Bool) (s : S8) : Spec.Sha.digest s.regs =
    Codec.writeBE64 big s.a ++ Codec.writeBE64 big s.b ++ Codec.writeBE64 big s.c ++ Codec.writeBE64 big s.d ++
    Codec.writeBE64 big s.e ++ Codec.writeBE64 big s.f ++ Codec.writeBE64 big s.g ++ Codec.writeBE64 big s.h := by
  simp only [writeBE64_toBytes, Spec.Sha.digest, S8.regs, List.flatMap_cons, List.flatMap_nil, List.append_nil, List.append_assoc]

end Sha
end Utreexo
