import Verif.Proof.Codec
import Verif.Proof.Pos

/-!
# C35: integer codecs and bit counters

`big` is the byte order of the host: the results do not depend on it.
-/

namespace Utreexo
open Spec Codec

/-- C35: `WriteBE32` writes the four bytes of the value, most significant first. -/
theorem C35_writeBE32 (big : Bool) (x : BitVec 32) :
    (writeBE32 big x).length = 4 ∧ beValue (writeBE32 big x) = x.toNat :=
  ⟨writeBE32_length big x, beValue_writeBE32 big x⟩

/-- C35: `ReadBE32` reads the four bytes at the pointer, most significant first. -/
theorem C35_readBE32 (big : Bool) (l rest : List Byte) (h : l.length = 4) :
    (readBE32 big (l ++ rest)).toNat = beValue l := by
  have : readBE32 big (l ++ rest) = readBE32 big l := by
    unfold readBE32; rw [List.take_append_of_le_length (by omega)]
  rw [this, readBE32_eq big l h, BitVec.toNat_ofNat, Nat.mod_eq_of_lt]
  have := beValue_lt l
  rw [h] at this; exact this

/-- C35: `WriteBE64`. -/
theorem C35_writeBE64 (big : Bool) (x : BitVec 64) :
    (writeBE64 big x).length = 8 ∧ beValue (writeBE64 big x) = x.toNat :=
  ⟨writeBE64_length big x, beValue_writeBE64 big x⟩

/-- C35: `ReadBE64`. -/
theorem C35_readBE64 (big : Bool) (l rest : List Byte) (h : l.length = 8) :
    (readBE64 big (l ++ rest)).toNat = beValue l := by
  have : readBE64 big (l ++ rest) = readBE64 big l := by
    unfold readBE64; rw [List.take_append_of_le_length (by omega)]
  rw [this, readBE64_eq big l h, BitVec.toNat_ofNat, Nat.mod_eq_of_lt]
  have := beValue_lt l
  rw [h] at this; exact this

theorem leValue_toNat {w : Nat} (l : List Byte) (h : 8 * l.length = w) :
    (BitVec.ofNat w (leNat l)).toNat = leValue l := by
  rw [BitVec.toNat_ofNat, Nat.mod_eq_of_lt, leNat_eq]
  rw [← h]; exact leNat_lt l

/-- C35: `ReadLE16`, `ReadLE32`, `ReadLE64` read the bytes least significant first. -/
theorem C35_readLE (big : Bool) (l rest : List Byte) :
    (l.length = 2 → (readLE16 big (l ++ rest)).toNat = leValue l) ∧
    (l.length = 4 → (readLE32 big (l ++ rest)).toNat = leValue l) ∧
    (l.length = 8 → (readLE64 big (l ++ rest)).toNat = leValue l) := by
  have ht : ∀ k, l.length = k → (l ++ rest).take k = l := by
    intro k hk; rw [List.take_append_of_le_length (by omega), List.take_of_length_le (by omega)]
  refine ⟨fun h => ?_, fun h => ?_, fun h => ?_⟩
  · unfold readLE16; rw [ht 2 h, read_big16 l h, leValue_toNat l (by omega)]
  · unfold readLE32; rw [ht 4 h, read_le32 l h, leValue_toNat l (by omega)]
  · unfold readLE64; rw [ht 8 h, read_le64 l h, leValue_toNat l (by omega)]

/-- C35: `WriteLE16`, `WriteLE32`, `WriteLE64` write the bytes least significant first. -/
theorem C35_writeLE (big : Bool) (x : BitVec 16) (y : BitVec 32) (z : BitVec 64) :
    ((writeLE16 big x).length = 2 ∧ leValue (writeLE16 big x) = x.toNat) ∧
    ((writeLE32 big y).length = 4 ∧ leValue (writeLE32 big y) = y.toNat) ∧
    ((writeLE64 big z).length = 8 ∧ leValue (writeLE64 big z) = z.toNat) := by
  rw [writeLE16_eq, writeLE32_eq, writeLE64_eq]
  simp only [leBytes_length, ← leNat_eq, leNat_leBytes]
  exact ⟨⟨trivial, Nat.mod_eq_of_lt x.isLt⟩, ⟨trivial, Nat.mod_eq_of_lt y.isLt⟩,
    ⟨trivial, Nat.mod_eq_of_lt z.isLt⟩⟩

/-- C35: reading back what was written, on hosts of any byte order, even when writer and reader
have different byte orders. -/
theorem C35_roundtrip (b1 b2 : Bool) (x : BitVec 16) (y : BitVec 32) (z : BitVec 64) :
    readLE16 b2 (writeLE16 b1 x) = x ∧ readLE32 b2 (writeLE32 b1 y) = y ∧
    readLE64 b2 (writeLE64 b1 z) = z ∧ readBE32 b2 (writeBE32 b1 y) = y ∧
    readBE64 b2 (writeBE64 b1 z) = z := by
  obtain ⟨⟨l1, w1⟩, ⟨l2, w2⟩, ⟨l3, w3⟩⟩ := C35_writeLE b1 x y z
  refine ⟨?_, ?_, ?_, ?_, ?_⟩ <;> apply BitVec.eq_of_toNat_eq
  · have := (C35_readLE b2 (writeLE16 b1 x) []).1 l1
    rw [List.append_nil] at this; rw [this, w1]
  · have := (C35_readLE b2 (writeLE32 b1 y) []).2.1 l2
    rw [List.append_nil] at this; rw [this, w2]
  · have := (C35_readLE b2 (writeLE64 b1 z) []).2.2 l3
    rw [List.append_nil] at this; rw [this, w3]
  · have := C35_readBE32 b2 (writeBE32 b1 y) [] (C35_writeBE32 b1 y).1
    rw [List.append_nil] at this; rw [this, (C35_writeBE32 b1 y).2]
  · have := C35_readBE64 b2 (writeBE64 b1 z) [] (C35_writeBE64 b1 z).1
    rw [List.append_nil] at this; rw [this, (C35_writeBE64 b1 z).2]

example : writeBE32 false 0x01020304#32 = [1, 2, 3, 4] ∧ writeBE32 true 0x01020304#32 = [1, 2, 3, 4] ∧
    writeLE32 true 0x01020304#32 = [4, 3, 2, 1] ∧ beValue [1, 2] = 258 := by decide

/-! ## Bit counters -/

/-- C35: `CountBits(x)` is the bit length of `x`. -/
theorem C35_countBits (x : Nat) (hx : x < 2 ^ 64) :
    x < 2 ^ countBits x ∧ ∀ k, x < 2 ^ k → countBits x ≤ k := by
  rw [countBits_eq x hx]
  by_cases h : x = 0
  · simp [h]
  · rw [if_neg h]
    exact ⟨Nat.lt_log2_self, fun k hk => (Nat.log2_lt h).2 hk⟩

/-- Isolating the lowest zero bit. -/
theorem low_zero_bit (q t : Nat) (hn : 2 ^ t * (2 * q) + (2 ^ t - 1) < 2 ^ 64) (ht : t < 64) :
    not64 (2 ^ t * (2 * q) + (2 ^ t - 1)) &&& wrap64 (2 ^ t * (2 * q) + (2 ^ t - 1) + 1) = 2 ^ t := by
  have hp : 0 < 2 ^ t := by positivity
  have h1 : 2 ^ t * (2 * q) + (2 ^ t - 1) + 1 = 2 ^ t * (2 * q + 1) := by rw [Nat.mul_add]; omega
  apply Nat.eq_of_testBit_eq
  intro j
  unfold not64 wrap64
  rw [show two64 - 1 - (2 ^ t * (2 * q) + (2 ^ t - 1)) = 2 ^ 64 - ((2 ^ t * (2 * q) + (2 ^ t - 1)) + 1) by
    rw [two64_eq]; omega]
  rw [Nat.testBit_and, Nat.testBit_two_pow_sub_succ hn, h1, two64_eq, Nat.testBit_mod_two_pow,
    Nat.testBit_two_pow_mul_add _ (by omega), Nat.testBit_two_pow_mul, Nat.testBit_two_pow]
  rcases Nat.lt_trichotomy j t with h | h | h
  · simp [h, Nat.not_le.2 h, show ¬ t = j by omega]
  · subst h; simp [ht]
  · rw [if_neg (by omega)]
    obtain ⟨d, rfl⟩ : ∃ d, j = t + (d + 1) := ⟨j - t - 1, by omega⟩
    rw [show t + (d + 1) - t = d + 1 by omega, Nat.testBit_succ, Nat.testBit_succ,
      show 2 * q / 2 = q by omega, show (2 * q + 1) / 2 = q by omega]
    cases q.testBit d <;> simp

theorem trailingOnes_eq (q t : Nat) (hn : 2 ^ t * (2 * q) + (2 ^ t - 1) < 2 ^ 64) (ht : t < 64) :
    trailingOnes (2 ^ t * (2 * q) + (2 ^ t - 1)) = t := by
  unfold trailingOnes
  rw [low_zero_bit q t hn ht]
  clear hn
  revert ht
  revert t
  decide

theorem exists_trailing (n k : Nat) : (∀ j, j < k → n.testBit j = true) ∨
    ∃ t, t < k ∧ (∀ j, j < t → n.testBit j = true) ∧ n.testBit t = false := by
  induction k with
  | zero => left; intro j hj; omega
  | succ k ih =>
    rcases ih with h | ⟨t, ht, h1, h2⟩
    · cases hb : n.testBit k
      · right; exact ⟨k, by omega, h, hb⟩
      · left
        intro j hj
        rcases Nat.lt_succ_iff_lt_or_eq.1 hj with h' | h'
        · exact h j h'
        · subst h'; exact hb
    · right; exact ⟨t, by omega, h1, h2⟩

/-- C35: `trailingOnes(n)` is the number of one bits below the lowest zero bit. -/
theorem C35_trailingOnes (n : Nat) (hn : n < 2 ^ 64) :
    trailingOnes n ≤ 64 ∧ (∀ j, j < trailingOnes n → n.testBit j = true) ∧
      (trailingOnes n < 64 → n.testBit (trailingOnes n) = false) := by
  rcases exists_trailing n 64 with h | ⟨t, ht, h1, h2⟩
  · have : n = 2 ^ 64 - 1 := by
      apply Nat.eq_of_testBit_eq
      intro j
      rw [Nat.testBit_two_pow_sub_one]
      by_cases hj : j < 64
      · rw [h j hj]; simp [hj]
      · rw [Nat.testBit_lt_two_pow (lt_of_lt_of_le hn (Nat.pow_le_pow_right (by omega) (by omega)))]
        simp [hj]
    have he : trailingOnes n = 64 := by rw [this]; decide
    rw [he]
    exact ⟨le_rfl, h, fun hc => by omega⟩
  · have hp : 0 < 2 ^ t := by positivity
    have hmod : n % 2 ^ t = 2 ^ t - 1 := by
      apply Nat.eq_of_testBit_eq
      intro j
      rw [Nat.testBit_mod_two_pow, Nat.testBit_two_pow_sub_one]
      by_cases hj : j < t
      · simp [hj, h1 j hj]
      · simp [hj]
    have hd := testBit_div' n t
    rw [h2] at hd
    have hn' : n = 2 ^ t * (2 * (n / 2 ^ (t + 1))) + (2 ^ t - 1) := by
      have := Nat.div_add_mod n (2 ^ t)
      rw [hmod] at this
      simp only [Bool.false_eq_true, if_false, Nat.add_zero] at hd
      rw [hd] at this
      exact this.symm
    have he : trailingOnes n = t := by
      conv_lhs => rw [hn']
      exact trailingOnes_eq _ t (by rw [← hn']; exact hn) ht
    rw [he]
    exact ⟨ht.le, h1, fun _ => h2⟩
where
  testBit_div' (n t : Nat) : n / 2 ^ t = 2 * (n / 2 ^ (t + 1)) + (if n.testBit t then 1 else 0) := by
    have h1 : n / 2 ^ (t + 1) = n / 2 ^ t / 2 := by rw [Nat.div_div_eq_div_mul, pow_succ]
    have h2 : n.testBit t = decide (n / 2 ^ t % 2 = 1) := Nat.testBit_eq_decide_div_mod_eq
    rw [h1, h2]
    by_cases h : n / 2 ^ t % 2 = 1
    · simp [h]; omega
    · simp [h]; omega

/-- C35: `trailingZeros(n)` is the number of zero bits below the lowest one bit. -/
theorem C35_trailingZeros (n : Nat) (hn : n < 2 ^ 64) :
    trailingZeros n ≤ 64 ∧ (∀ j, j < trailingZeros n → n.testBit j = false) ∧
      (trailingZeros n < 64 → n.testBit (trailingZeros n) = true) := by
  have hb : ∀ j, j < 64 → (not64 n).testBit j = !n.testBit j := by
    intro j hj
    unfold not64
    rw [show two64 - 1 - n = 2 ^ 64 - (n + 1) by rw [two64_eq]; omega,
      Nat.testBit_two_pow_sub_succ hn]
    simp [hj]
  obtain ⟨h1, h2, h3⟩ := C35_trailingOnes (not64 n) (by unfold not64; rw [two64_eq]; omega)
  unfold trailingZeros
  refine ⟨h1, ?_, ?_⟩
  · intro j hj
    have := h2 j hj
    rw [hb j (by omega)] at this
    simpa using this
  · intro hlt
    have := h3 hlt
    rw [hb _ hlt] at this
    simpa using this

example : trailingOnes 23 = 3 ∧ trailingZeros 40 = 3 ∧ trailingOnes (2 ^ 64 - 1) = 64 ∧ countBits 40 = 6 := by
  decide

end Utreexo
