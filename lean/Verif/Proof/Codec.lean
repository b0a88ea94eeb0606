import Verif.Model.Codec
import Verif.Spec.Bytes
import Mathlib.Tactic.Ring
import Mathlib.Tactic.IntervalCases

/-! # Byte order lemmas -/

namespace Utreexo
namespace Codec
open Spec

theorem leNat_eq (l : List Byte) : leNat l = leValue l := by
  induction l with
  | nil => rfl
  | cons b l ih => rw [leNat, ih]; rfl

theorem beValue_eq (l : List Byte) : beValue l = leValue l.reverse := by
  unfold beValue leValue
  rw [List.foldr_reverse]
  congr 1
  funext a b; ring

theorem leNat_lt (l : List Byte) : leNat l < 2 ^ (8 * l.length) := by
  induction l with
  | nil => simp [leNat]
  | cons b l ih =>
    rw [leNat, List.length_cons, show 8 * (l.length + 1) = 8 * l.length + 8 by ring, pow_add]
    have := b.isLt
    omega

theorem leBytes_length (k x : Nat) : (leBytes k x).length = k := by
  induction k generalizing x with
  | zero => rfl
  | succ k ih => simp [leBytes, ih]

theorem leNat_leBytes (k x : Nat) : leNat (leBytes k x) = x % 2 ^ (8 * k) := by
  induction k generalizing x with
  | zero => simp [leBytes, leNat, Nat.mod_one]
  | succ k ih =>
    rw [leBytes, leNat, ih, BitVec.toNat_ofNat, show 8 * (k + 1) = 8 + 8 * k by ring, pow_add,
      Nat.mod_mul]; rfl

theorem leBytes_leNat (l : List Byte) : leBytes l.length (leNat l) = l := by
  induction l with
  | nil => rfl
  | cons b l ih =>
    have hb := b.isLt
    rw [List.length_cons, leBytes, leNat]
    rw [show (b.toNat + 256 * leNat l) / 256 = leNat l by omega, ih]
    congr 1
    apply BitVec.eq_of_toNat_eq
    rw [BitVec.toNat_ofNat]; omega

theorem leNat_testBit (l : List Byte) (i : Nat) :
    (leNat l).testBit i = (l.getD (i / 8) 0#8).getLsbD (i % 8) := by
  induction l generalizing i with
  | nil => simp [leNat]
  | cons b l ih =>
    rw [leNat, Nat.add_comm, show 256 = 2 ^ 8 from rfl, Nat.testBit_two_pow_mul_add _ b.isLt]
    by_cases h : i < 8
    · rw [if_pos h, Nat.div_eq_of_lt h, Nat.mod_eq_of_lt h]; rfl
    · rw [if_neg h, ih]
      rw [show i / 8 = (i - 8) / 8 + 1 by omega, show i % 8 = (i - 8) % 8 by omega]; rfl

theorem getElem_ofNat_leNat (w : Nat) (l : List Byte) (i : Nat) (h : i < w) :
    (BitVec.ofNat w (leNat l))[i] = (l.getD (i / 8) 0#8).getLsbD (i % 8) := by
  rw [← BitVec.getLsbD_eq_getElem, BitVec.getLsbD_ofNat, leNat_testBit]; simp [h]

theorem bswap16_bytes (l : List Byte) (h : l.length = 2) :
    bswap16 (BitVec.ofNat 16 (leNat l)) = BitVec.ofNat 16 (leNat l.reverse) := by
  match l, h with
  | [a, b], _ =>
    apply BitVec.eq_of_getLsbD_eq
    intro i hi
    interval_cases i <;>
      simp [bswap16, getElem_ofNat_leNat]

theorem bswap32_bytes (l : List Byte) (h : l.length = 4) :
    bswap32 (BitVec.ofNat 32 (leNat l)) = BitVec.ofNat 32 (leNat l.reverse) := by
  match l, h with
  | [a, b, c, d], _ =>
    apply BitVec.eq_of_getLsbD_eq
    intro i hi
    interval_cases i <;>
      simp [bswap32, getElem_ofNat_leNat]

theorem bswap64_bytes (l : List Byte) (h : l.length = 8) :
    bswap64 (BitVec.ofNat 64 (leNat l)) = BitVec.ofNat 64 (leNat l.reverse) := by
  match l, h with
  | [a, b, c, d, e, f, g, k], _ =>
    apply BitVec.eq_of_getLsbD_eq
    intro i hi
    interval_cases i <;>
      simp [bswap64, getElem_ofNat_leNat]

/-! ## Reading -/

theorem read_big16 (l : List Byte) (h : l.length = 2) (big : Bool) :
    le16 big (hostLoad big 16 l) = BitVec.ofNat 16 (leNat l) := by
  unfold le16 hostLoad
  cases big
  · rfl
  · simp only [if_true]; rw [bswap16_bytes _ (by simpa using h), List.reverse_reverse]

theorem read_le32 (l : List Byte) (h : l.length = 4) (big : Bool) :
    le32 big (hostLoad big 32 l) = BitVec.ofNat 32 (leNat l) := by
  unfold le32 hostLoad
  cases big
  · rfl
  · simp only [if_true]; rw [bswap32_bytes _ (by simpa using h), List.reverse_reverse]

theorem read_le64 (l : List Byte) (h : l.length = 8) (big : Bool) :
    le64 big (hostLoad big 64 l) = BitVec.ofNat 64 (leNat l) := by
  unfold le64 hostLoad
  cases big
  · rfl
  · simp only [if_true]; rw [bswap64_bytes _ (by simpa using h), List.reverse_reverse]

theorem read_be32 (l : List Byte) (h : l.length = 4) (big : Bool) :
    be32 big (hostLoad big 32 l) = BitVec.ofNat 32 (leNat l.reverse) := by
  unfold be32 hostLoad
  cases big
  · simpa using bswap32_bytes _ h
  · rfl

theorem read_be64 (l : List Byte) (h : l.length = 8) (big : Bool) :
    be64 big (hostLoad big 64 l) = BitVec.ofNat 64 (leNat l.reverse) := by
  unfold be64 hostLoad
  cases big
  · simpa using bswap64_bytes _ h
  · rfl

/-! ## Writing -/

theorem ofNat_leBytes {w : Nat} (k : Nat) (hw : w = 8 * k) (x : BitVec w) :
    x = BitVec.ofNat w (leNat (leBytes k x.toNat)) := by
  rw [leNat_leBytes, ← hw, Nat.mod_eq_of_lt x.isLt, BitVec.ofNat_toNat, BitVec.setWidth_eq]

theorem leBytes_ofNat {w : Nat} (k : Nat) (hw : w = 8 * k) (l : List Byte) (h : l.length = k) :
    leBytes k (BitVec.ofNat w (leNat l)).toNat = l := by
  have := leNat_lt l
  rw [BitVec.toNat_ofNat, Nat.mod_eq_of_lt (by rw [hw, ← h]; exact this), ← h, leBytes_leNat]

theorem bswap16_store (x : BitVec 16) : leBytes 2 (bswap16 x).toNat = (leBytes 2 x.toNat).reverse := by
  conv_lhs => rw [ofNat_leBytes 2 rfl x, bswap16_bytes _ (leBytes_length _ _)]
  rw [leBytes_ofNat 2 rfl _ (by simp [leBytes_length])]

theorem bswap32_store (x : BitVec 32) : leBytes 4 (bswap32 x).toNat = (leBytes 4 x.toNat).reverse := by
  conv_lhs => rw [ofNat_leBytes 4 rfl x, bswap32_bytes _ (leBytes_length _ _)]
  rw [leBytes_ofNat 4 rfl _ (by simp [leBytes_length])]

theorem bswap64_store (x : BitVec 64) : leBytes 8 (bswap64 x).toNat = (leBytes 8 x.toNat).reverse := by
  conv_lhs => rw [ofNat_leBytes 8 rfl x, bswap64_bytes _ (leBytes_length _ _)]
  rw [leBytes_ofNat 8 rfl _ (by simp [leBytes_length])]

theorem writeLE16_eq (big : Bool) (x : BitVec 16) : writeLE16 big x = leBytes 2 x.toNat := by
  unfold writeLE16 hostStore le16
  cases big
  · rfl
  · simp [bswap16_store]

theorem writeLE32_eq (big : Bool) (x : BitVec 32) : writeLE32 big x = leBytes 4 x.toNat := by
  unfold writeLE32 hostStore le32
  cases big
  · rfl
  · simp [bswap32_store]

theorem writeLE64_eq (big : Bool) (x : BitVec 64) : writeLE64 big x = leBytes 8 x.toNat := by
  unfold writeLE64 hostStore le64
  cases big
  · rfl
  · simp [bswap64_store]

theorem writeBE32_eq (big : Bool) (x : BitVec 32) : writeBE32 big x = (leBytes 4 x.toNat).reverse := by
  unfold writeBE32 hostStore be32
  cases big
  · simp [bswap32_store]
  · rfl

theorem writeBE64_eq (big : Bool) (x : BitVec 64) : writeBE64 big x = (leBytes 8 x.toNat).reverse := by
  unfold writeBE64 hostStore be64
  cases big
  · simp [bswap64_store]
  · rfl

theorem writeBE32_length (big : Bool) (x : BitVec 32) : (writeBE32 big x).length = 4 := by
  rw [writeBE32_eq]; simp [leBytes_length]

theorem writeBE64_length (big : Bool) (x : BitVec 64) : (writeBE64 big x).length = 8 := by
  rw [writeBE64_eq]; simp [leBytes_length]

theorem readBE32_eq (big : Bool) (l : List Byte) (h : l.length = 4) :
    readBE32 big l = BitVec.ofNat 32 (beValue l) := by
  unfold readBE32
  rw [List.take_of_length_le (by omega), read_be32 l h, beValue_eq, leNat_eq]

theorem readBE64_eq (big : Bool) (l : List Byte) (h : l.length = 8) :
    readBE64 big l = BitVec.ofNat 64 (beValue l) := by
  unfold readBE64
  rw [List.take_of_length_le (by omega), read_be64 l h, beValue_eq, leNat_eq]

theorem beValue_lt (l : List Byte) : beValue l < 2 ^ (8 * l.length) := by
  rw [beValue_eq, ← leNat_eq]
  have := leNat_lt l.reverse
  simpa using this

theorem beValue_writeBE32 (big : Bool) (x : BitVec 32) : beValue (writeBE32 big x) = x.toNat := by
  rw [writeBE32_eq, beValue_eq, List.reverse_reverse, ← leNat_eq, leNat_leBytes]
  exact Nat.mod_eq_of_lt x.isLt

theorem beValue_writeBE64 (big : Bool) (x : BitVec 64) : beValue (writeBE64 big x) = x.toNat := by
  rw [writeBE64_eq, beValue_eq, List.reverse_reverse, ← leNat_eq, leNat_leBytes]
  exact Nat.mod_eq_of_lt x.isLt

theorem readBE32_write (big : Bool) (x : BitVec 32) : readBE32 big (writeBE32 big x) = x := by
  rw [readBE32_eq big _ (writeBE32_length _ _), beValue_writeBE32]; simp

theorem writeBE32_read (big : Bool) (l : List Byte) (h : l.length = 4) :
    writeBE32 big (readBE32 big l) = l := by
  rw [readBE32_eq big l h, writeBE32_eq, beValue_eq, ← leNat_eq, leBytes_ofNat 4 rfl _ (by simpa using h),
    List.reverse_reverse]

end Codec
end Utreexo
