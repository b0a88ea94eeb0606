import Verif.Model.Batch
import Verif.Proof.Codec
import Verif.Proof.Pos

/-! # Serialization lemmas -/

namespace Utreexo
namespace Batch
open Codec Spec

/-- Encoding of positions. -/
def encPos (big : Bool) (ts : List Nat) : List Byte :=
  ts.flatMap fun t => writeBE32 big (BitVec.ofNat 32 t)

/-- Encoding of hashes. -/
def encHash (hs : List Hash32) : List Byte := hs.flatMap fun h => h.val

@[simp] theorem encPos_length (big : Bool) (ts : List Nat) : (encPos big ts).length = 4 * ts.length := by
  induction ts with
  | nil => rfl
  | cons t ts ih =>
    unfold encPos at *
    rw [List.flatMap_cons, List.length_append, ih, writeBE32_length, List.length_cons]; ring

@[simp] theorem encHash_length (hs : List Hash32) : (encHash hs).length = 32 * hs.length := by
  induction hs with
  | nil => rfl
  | cons h hs ih =>
    unfold encHash at *
    rw [List.flatMap_cons, List.length_append, ih, h.2, List.length_cons]; ring

theorem memWrite_ok {pre mid post bs : List Byte} {off : Nat} (h1 : pre.length = off)
    (h2 : mid.length = bs.length) :
    memWrite (pre ++ (mid ++ post)) off bs = .ok (pre ++ (bs ++ post)) := by
  unfold memWrite
  rw [if_pos (by simp; omega)]
  congr 1
  have e1 : (pre ++ (mid ++ post)).take off = pre := by
    rw [List.take_append_of_le_length (by omega), List.take_of_length_le (by omega)]
  have e2 : (pre ++ (mid ++ post)).drop (off + bs.length) = post := by
    rw [← List.append_assoc, List.drop_append_of_le_length (by simp; omega),
      List.drop_of_length_le (by simp; omega), List.nil_append]
  rw [e1, e2, List.append_assoc]

theorem addInt_ok {a b : Nat} (h : a + b < 2147483648) : addInt a b = .ok (a + b) := by
  unfold addInt; rw [if_pos h]

theorem addInt_ub {a b : Nat} (h : ¬ a + b < 2147483648) : addInt a b = .error .ub := by
  unfold addInt; rw [if_neg h]

theorem writePositions_ok (big : Bool) : ∀ (ts : List Nat) (pre mid post : List Byte) (off : Nat),
    pre.length = off → mid.length = 4 * ts.length → off + 4 * ts.length < 2147483648 →
    writePositions big ts (pre ++ (mid ++ post)) off =
      .ok (pre ++ (encPos big ts ++ post), off + 4 * ts.length) := by
  intro ts
  induction ts with
  | nil =>
    intro pre mid post off _ h2 _
    have : mid = [] := List.length_eq_zero_iff.1 (by simpa using h2)
    subst this; rfl
  | cons t ts ih =>
    intro pre mid post off h1 h2 h3
    simp only [List.length_cons] at h2 h3
    have hm : mid = mid.take 4 ++ mid.drop 4 := (List.take_append_drop 4 mid).symm
    rw [writePositions, hm, List.append_assoc,
      memWrite_ok h1 (by rw [writeBE32_length]; simp; omega), ok_bind, addInt_ok (by omega), ok_bind]
    rw [← List.append_assoc pre, ih _ _ _ _ (by simp [writeBE32_length, h1]) (by simp; omega) (by omega)]
    unfold encPos
    simp only [List.flatMap_cons, List.append_assoc, List.length_cons]
    congr 2; ring

theorem writeHashes_ok : ∀ (hs : List Hash32) (pre mid post : List Byte) (off : Nat),
    pre.length = off → mid.length = 32 * hs.length → off + 32 * hs.length < 2147483648 →
    writeHashes hs (pre ++ (mid ++ post)) off =
      .ok (pre ++ (encHash hs ++ post), off + 32 * hs.length) := by
  intro hs
  induction hs with
  | nil =>
    intro pre mid post off _ h2 _
    have : mid = [] := List.length_eq_zero_iff.1 (by simpa using h2)
    subst this; rfl
  | cons h hs ih =>
    intro pre mid post off h1 h2 h3
    simp only [List.length_cons] at h2 h3
    have hm : mid = mid.take 32 ++ mid.drop 32 := (List.take_append_drop 32 mid).symm
    rw [writeHashes, hm, List.append_assoc,
      memWrite_ok h1 (by rw [h.2]; simp; omega), ok_bind, addInt_ok (by omega), ok_bind]
    rw [← List.append_assoc pre, ih _ _ _ _ (by simp [h.2, h1]) (by simp; omega) (by omega)]
    unfold encHash
    simp only [List.flatMap_cons, List.append_assoc, List.length_cons]
    congr 2; ring

theorem vecResize_length {α : Type} (v : List α) (k : Nat) (d : α) : (vecResize v k d).length = k := by
  unfold vecResize; simp; omega

/-- The common shape of both `Serialize` functions. -/
theorem serialize_shape (big : Bool) (a b : Nat) (ts : List Nat) (hs : List Hash32)
    (buf : List Byte) (hbuf : buf.length = 8 + 4 * ts.length + 32 * hs.length)
    (hsize : 8 + 4 * ts.length + 32 * hs.length < 2147483648) :
    (do
      let buf ← memWrite buf 0 (writeBE32 big (BitVec.ofNat 32 a))
      let off ← addInt 0 4
      let buf ← memWrite buf off (writeBE32 big (BitVec.ofNat 32 b))
      let off ← addInt off 4
      let (buf, off) ← writePositions big ts buf off
      let (buf, _) ← writeHashes hs buf off
      return buf : Res (List Byte)) =
      .ok (writeBE32 big (BitVec.ofNat 32 a) ++ (writeBE32 big (BitVec.ofNat 32 b) ++
        (encPos big ts ++ encHash hs))) := by
  have e : buf = [] ++ (buf.take 4 ++ buf.drop 4) := by simp
  rw [e, memWrite_ok (off := 0) rfl (by rw [writeBE32_length]; simp; omega)]
  simp only [ok_bind, List.nil_append]
  rw [addInt_ok (by omega)]
  simp only [ok_bind]
  have e2 : buf.drop 4 = (buf.drop 4).take 4 ++ buf.drop 8 := by
    rw [show buf.drop 8 = (buf.drop 4).drop 4 by simp, List.take_append_drop]
  rw [e2, memWrite_ok (by rw [writeBE32_length]) (by rw [writeBE32_length]; simp; omega)]
  simp only [ok_bind]
  rw [addInt_ok (by omega)]
  simp only [ok_bind]
  have e3 : buf.drop 8 = (buf.drop 8).take (4 * ts.length) ++ (buf.drop 8).drop (4 * ts.length) :=
    (List.take_append_drop _ _).symm
  rw [e3, ← List.append_assoc, writePositions_ok big ts _ _ _ _ (by simp [writeBE32_length])
    (by simp; omega) (by omega)]
  simp only [ok_bind]
  have e4 := writeHashes_ok hs
    (writeBE32 big (BitVec.ofNat 32 a) ++ writeBE32 big (BitVec.ofNat 32 b) ++ encPos big ts)
    ((buf.drop 8).drop (4 * ts.length)) [] (0 + 4 + 4 + 4 * ts.length)
    (by simp [writeBE32_length]; omega) (by simp; omega) (by omega)
  simp only [List.append_nil, List.append_assoc] at e4 ⊢
  rw [e4]; rfl

/-! ## Decoding -/

theorem memRead_ok {buf : List Byte} {off k : Nat} (h : off + k ≤ buf.length) :
    memRead buf off k = .ok ((buf.drop off).take k) := by
  unfold memRead; rw [if_pos h]

theorem take_add_drop (l : List Byte) (off a b : Nat) :
    (l.drop off).take (a + b) = (l.drop off).take a ++ (l.drop (off + a)).take b := by
  rw [List.take_add, List.drop_drop]

theorem readPositions_ok (big : Bool) (bytes : List Byte) : ∀ (k off : Nat),
    off + 4 * k ≤ bytes.length → off + 4 * k < 2147483648 →
    ∃ ts, readPositions big bytes k off = .ok (ts, off + 4 * k) ∧ ts.length = k ∧
      (∀ t ∈ ts, t < 2 ^ 32) ∧ encPos big ts = (bytes.drop off).take (4 * k) := by
  intro k
  induction k with
  | zero => intro off _ _; exact ⟨[], rfl, rfl, by simp, by simp [encPos]⟩
  | succ k ih =>
    intro off h1 h2
    obtain ⟨ts, i1, i2, i3, i4⟩ := ih (off + 4) (by omega) (by omega)
    refine ⟨(readBE32 big ((bytes.drop off).take 4)).toNat :: ts, ?_, by simp [i2], ?_, ?_⟩
    · rw [readPositions, memRead_ok (by omega), ok_bind, addInt_ok (by omega), ok_bind, i1]
      simp only [ok_bind, pure_ok]
      rw [show off + 4 + 4 * k = off + 4 * (k + 1) by ring]
    · intro t ht
      rcases List.mem_cons.1 ht with rfl | ht
      · exact (readBE32 big _).isLt
      · exact i3 t ht
    · rw [show 4 * (k + 1) = 4 + 4 * k by ring, take_add_drop, ← i4]
      unfold encPos
      rw [List.flatMap_cons, BitVec.ofNat_toNat, BitVec.setWidth_eq,
        writeBE32_read big _ (by simp; omega)]

theorem readHashes_ok (bytes : List Byte) : ∀ (k off : Nat),
    off + 32 * k ≤ bytes.length → off + 32 * k < 2147483648 →
    ∃ hs, readHashes bytes k off = .ok (hs, off + 32 * k) ∧ hs.length = k ∧
      encHash hs = (bytes.drop off).take (32 * k) := by
  intro k
  induction k with
  | zero => intro off _ _; exact ⟨[], rfl, rfl, by simp [encHash]⟩
  | succ k ih =>
    intro off h1 h2
    obtain ⟨hs, i1, i2, i4⟩ := ih (off + 32) (by omega) (by omega)
    refine ⟨⟨(bytes.drop off).take 32, by simp; omega⟩ :: hs, ?_, by simp [i2], ?_⟩
    · rw [readHashes]
      unfold readHash
      rw [dif_pos (by omega), ok_bind, addInt_ok (by omega), ok_bind, i1]
      simp only [ok_bind, pure_ok]
      rw [show off + 32 + 32 * k = off + 32 * (k + 1) by ring]
    · rw [show 32 * (k + 1) = 32 + 32 * k by ring, take_add_drop, ← i4]
      unfold encHash
      rw [List.flatMap_cons]

theorem insert_perm (x : Nat) : ∀ l : List Nat, (St.insertSorted x l).Perm (x :: l) := by
  intro l
  induction l with
  | nil => exact .refl _
  | cons y l ih =>
    rw [St.insertSorted]
    split
    · exact .refl _
    · exact (ih.cons y).trans (.swap x y l)

theorem sort_perm : ∀ l : List Nat, (St.sortU64 l).Perm l := by
  intro l
  induction l with
  | nil => exact .refl _
  | cons x l ih => exact (insert_perm x _).trans (ih.cons x)

theorem insert_le {x : Nat} : ∀ {l : List Nat}, l.Pairwise (· ≤ ·) → (St.insertSorted x l).Pairwise (· ≤ ·) := by
  intro l
  induction l with
  | nil => intro _; exact List.pairwise_singleton _ _
  | cons y l ih =>
    intro h
    obtain ⟨h1, h2⟩ := List.pairwise_cons.1 h
    rw [St.insertSorted]
    split
    · rename_i hxy
      refine List.pairwise_cons.2 ⟨fun z hz => ?_, h⟩
      rcases List.mem_cons.1 hz with rfl | hz
      · exact hxy
      · exact Nat.le_trans hxy (h1 z hz)
    · rename_i hxy
      refine List.pairwise_cons.2 ⟨fun z hz => ?_, ih h2⟩
      rcases List.mem_cons.1 ((insert_perm x l).mem_iff.1 hz) with rfl | hz
      · omega
      · exact h1 z hz

theorem sort_le : ∀ l : List Nat, (St.sortU64 l).Pairwise (· ≤ ·) := by
  intro l
  induction l with
  | nil => exact List.Pairwise.nil
  | cons x l ih => exact insert_le ih

/-- An overflowing offset is undefined behaviour. -/
theorem readPositions_ub (big : Bool) (bytes : List Byte) : ∀ (k off : Nat),
    off < 2147483648 → ¬ off + 4 * k < 2147483648 → readPositions big bytes k off = .error .ub := by
  intro k
  induction k with
  | zero => intro off h1 h2; omega
  | succ k ih =>
    intro off h1 h2
    rw [readPositions]
    unfold memRead
    split
    · rw [ok_bind]
      by_cases h : off + 4 < 2147483648
      · rw [addInt_ok h, ok_bind, ih (off + 4) h (by omega)]; rfl
      · rw [addInt_ub h]; rfl
    · rfl

theorem readHashes_ub (bytes : List Byte) : ∀ (k off : Nat),
    off < 2147483648 → ¬ off + 32 * k < 2147483648 → readHashes bytes k off = .error .ub := by
  intro k
  induction k with
  | zero => intro off h1 h2; omega
  | succ k ih =>
    intro off h1 h2
    rw [readHashes]
    unfold readHash
    split
    · rw [ok_bind]
      by_cases h : off + 32 < 2147483648
      · rw [addInt_ok h, ok_bind, ih (off + 32) h (by omega)]; rfl
      · rw [addInt_ub h]; rfl
    · rfl

/-- Encodings determine positions below `2^32`. -/
theorem encPos_inj (big : Bool) : ∀ (a b : List Nat), a.length = b.length →
    (∀ t ∈ a, t < 2 ^ 32) → (∀ t ∈ b, t < 2 ^ 32) → encPos big a = encPos big b → a = b := by
  intro a
  induction a with
  | nil => intro b h _ _ _; exact (List.length_eq_zero_iff.1 (by simpa using h.symm)).symm
  | cons x a ih =>
    intro b h ha hb he
    match b, h, hb, he with
    | y :: b, h, hb, he =>
      unfold encPos at he
      rw [List.flatMap_cons, List.flatMap_cons] at he
      obtain ⟨e1, e2⟩ := List.append_inj he (by rw [writeBE32_length, writeBE32_length])
      have hxy : x = y := by
        have h1 := congrArg beValue e1
        rw [beValue_writeBE32, beValue_writeBE32, BitVec.toNat_ofNat, BitVec.toNat_ofNat,
          Nat.mod_eq_of_lt (ha x (by simp)), Nat.mod_eq_of_lt (hb y (by simp))] at h1
        exact h1
      rw [hxy, ih b (by simpa using h) (fun t ht => ha t (by simp [ht]))
        (fun t ht => hb t (by simp [ht])) e2]

theorem encHash_inj : ∀ (a b : List Hash32), a.length = b.length → encHash a = encHash b → a = b := by
  intro a
  induction a with
  | nil => intro b h _; exact (List.length_eq_zero_iff.1 (by simpa using h.symm)).symm
  | cons x a ih =>
    intro b h he
    match b, h, he with
    | y :: b, h, he =>
      unfold encHash at he
      rw [List.flatMap_cons, List.flatMap_cons] at he
      obtain ⟨e1, e2⟩ := List.append_inj he (by rw [x.2, y.2])
      rw [Subtype.ext e1, ih b (by simpa using h) e2]

theorem encPos_mod (big : Bool) (ts : List Nat) : encPos big (ts.map (· % 2 ^ 32)) = encPos big ts := by
  induction ts with
  | nil => rfl
  | cons t ts ih =>
    unfold encPos at *
    simp only [List.map_cons, List.flatMap_cons, ih]
    congr 2
    apply BitVec.eq_of_toNat_eq
    simp

end Batch
end Utreexo
