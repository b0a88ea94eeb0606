import Verif.Proof.Batch

/-!
# C10 - C15: proof and undo serialization
-/

namespace Utreexo
open Spec Codec Batch

/-- The wire format of a proof: two 32-bit big-endian counts, the targets as 32-bit big-endian
integers, the hashes. -/
structure IsProofEncoding (bytes : List Byte) (targets : List Nat) (hashes : List Hash32) : Prop where
  /-- total length -/
  length : bytes.length = 8 + 4 * targets.length + 32 * hashes.length
  /-- first count -/
  count0 : beValue (bytes.take 4) = targets.length
  /-- second count -/
  count1 : beValue ((bytes.drop 4).take 4) = hashes.length
  /-- the `i`-th target -/
  target : ∀ i t, targets[i]? = some t → beValue ((bytes.drop (8 + 4 * i)).take 4) = t
  /-- the `i`-th hash -/
  hash : ∀ i h, hashes[i]? = some h →
    (bytes.drop (8 + 4 * targets.length + 32 * i)).take 32 = h.val

/-! ## Encoding -/

theorem serialize_eq (big : Bool) (p : BatchProof Hash32) (old : List Byte)
    (h : 8 + 4 * p.targets.length + 32 * p.hashes.length < 2147483648) :
    serialize big p old = .ok (writeBE32 big (BitVec.ofNat 32 p.targets.length) ++
      (writeBE32 big (BitVec.ofNat 32 p.hashes.length) ++ (encPos big p.targets ++ encHash p.hashes))) := by
  unfold serialize
  exact serialize_shape big _ _ _ _ _ (by rw [vecResize_length]; ring) h

theorem encPos_get (big : Bool) (ts : List Nat) (rest : List Byte) : ∀ i t, ts[i]? = some t →
    ((encPos big ts ++ rest).drop (4 * i)).take 4 = writeBE32 big (BitVec.ofNat 32 t) := by
  induction ts with
  | nil => intro i t h; simp at h
  | cons x ts ih =>
    intro i t h
    have hsplit : encPos big (x :: ts) ++ rest = writeBE32 big (BitVec.ofNat 32 x) ++ (encPos big ts ++ rest) := by
      unfold encPos; simp
    rw [hsplit]
    rcases i with _ | i
    · simp at h; subst h
      rw [Nat.mul_zero, List.drop_zero, List.take_append_of_le_length (by rw [writeBE32_length]),
        List.take_of_length_le (by rw [writeBE32_length])]
    · rw [show 4 * (i + 1) = (writeBE32 big (BitVec.ofNat 32 x)).length + 4 * i by
        rw [writeBE32_length]; ring, List.drop_append]
      simp only [List.drop_of_length_le (Nat.le_add_right _ _), List.nil_append, Nat.add_sub_cancel_left]
      exact ih i t (by simpa using h)

theorem encHash_get (hs : List Hash32) : ∀ i h, hs[i]? = some h →
    ((encHash hs).drop (32 * i)).take 32 = h.val := by
  induction hs with
  | nil => intro i t h; simp at h
  | cons x hs ih =>
    intro i t h
    have hsplit : encHash (x :: hs) = x.val ++ encHash hs := by unfold encHash; simp
    rw [hsplit]
    rcases i with _ | i
    · simp at h; subst h
      rw [Nat.mul_zero, List.drop_zero, List.take_append_of_le_length (by rw [x.2]),
        List.take_of_length_le (by rw [x.2])]
    · rw [show 32 * (i + 1) = x.val.length + 32 * i by rw [x.2]; ring, List.drop_append]
      simp only [List.drop_of_length_le (Nat.le_add_right _ _), List.nil_append, Nat.add_sub_cancel_left]
      exact ih i t (by simpa using h)

/-- C10: `Serialize` writes the wire format, whatever the output vector held before. Targets must
fit in 32 bits and the encoding must be shorter than `2^31` bytes (`int data_offset`). -/
theorem C10_serialize_format (big : Bool) (p : BatchProof Hash32) (old : List Byte)
    (hsize : 8 + 4 * p.targets.length + 32 * p.hashes.length < 2 ^ 31)
    (ht : ∀ t ∈ p.targets, t < 2 ^ 32) :
    ∃ bytes, serialize big p old = .ok bytes ∧ IsProofEncoding bytes p.targets p.hashes := by
  refine ⟨_, serialize_eq big p old (by omega), ?_⟩
  have l1 := writeBE32_length big (BitVec.ofNat 32 p.targets.length)
  have l2 := writeBE32_length big (BitVec.ofNat 32 p.hashes.length)
  have v1 := beValue_writeBE32 big (BitVec.ofNat 32 p.targets.length)
  have v2 := beValue_writeBE32 big (BitVec.ofNat 32 p.hashes.length)
  rw [BitVec.toNat_ofNat, Nat.mod_eq_of_lt (by omega)] at v1 v2
  generalize writeBE32 big (BitVec.ofNat 32 p.targets.length) = a at *
  generalize writeBE32 big (BitVec.ofNat 32 p.hashes.length) = b at *
  have d4 : (a ++ (b ++ (encPos big p.targets ++ encHash p.hashes))).drop 4 =
      b ++ (encPos big p.targets ++ encHash p.hashes) := by
    rw [← l1, List.drop_left]
  have d8 : ∀ k, (a ++ (b ++ (encPos big p.targets ++ encHash p.hashes))).drop (8 + k) =
      (encPos big p.targets ++ encHash p.hashes).drop k := by
    intro k
    rw [show 8 + k = a.length + (b.length + k) by omega, ← List.drop_drop, List.drop_left,
      ← List.drop_drop, List.drop_left]
  refine ⟨?_, ?_, ?_, ?_, ?_⟩
  · simp [l1, l2]; ring
  · rw [← l1, List.take_left]; exact v1
  · rw [d4, ← l2, List.take_left]; exact v2
  · intro i t h
    rw [d8, encPos_get big _ _ i t h, beValue_writeBE32, BitVec.toNat_ofNat, Nat.mod_eq_of_lt]
    exact ht t (List.mem_of_getElem? h)
  · intro i h hh
    rw [show 8 + 4 * p.targets.length + 32 * i = 8 + ((encPos big p.targets).length + 32 * i) by
      rw [encPos_length]; ring, d8, ← List.drop_drop, List.drop_left]
    exact encHash_get _ i h hh

/-! ## Decoding -/

/-- Everything `Unserialize` does on inputs below `2^31` bytes. -/
theorem unserialize_spec (big : Bool) (old : BatchProof Hash32) (bytes : List Byte)
    (hlen : bytes.length < 2147483648) :
    (unserialize big old bytes = .ok (false, old) ∧
      ¬ (8 ≤ bytes.length ∧ bytes.length =
        8 + 4 * beValue (bytes.take 4) + 32 * beValue ((bytes.drop 4).take 4))) ∨
    ∃ ts hs, unserialize big old bytes =
        .ok (true, { targets := ts, sorted := St.sortU64 (old.sorted ++ ts), hashes := hs }) ∧
      8 ≤ bytes.length ∧ ts.length = beValue (bytes.take 4) ∧
      hs.length = beValue ((bytes.drop 4).take 4) ∧
      bytes.length = 8 + 4 * ts.length + 32 * hs.length ∧
      (∀ t ∈ ts, t < 2 ^ 32) ∧
      bytes = writeBE32 big (BitVec.ofNat 32 ts.length) ++
        (writeBE32 big (BitVec.ofNat 32 hs.length) ++ (encPos big ts ++ encHash hs)) := by
  unfold unserialize
  by_cases h8 : bytes.length < 8
  · rw [if_pos h8]; left; exact ⟨rfl, fun h => by omega⟩
  rw [if_neg h8, memRead_ok (by omega)]
  simp only [ok_bind]
  rw [addInt_ok (by omega)]
  simp only [ok_bind]
  rw [memRead_ok (by omega)]
  simp only [ok_bind]
  rw [addInt_ok (by omega)]
  simp only [ok_bind, List.drop_zero, Nat.zero_add]
  have la : (bytes.take 4).length = 4 := by simp; omega
  have lb : ((bytes.drop 4).take 4).length = 4 := by simp; omega
  have va : (readBE32 big (bytes.take 4)).toNat = beValue (bytes.take 4) := by
    rw [readBE32_eq big _ la, BitVec.toNat_ofNat, Nat.mod_eq_of_lt]
    have := beValue_lt (bytes.take 4); rw [la] at this; exact this
  have vb : (readBE32 big ((bytes.drop 4).take 4)).toNat = beValue ((bytes.drop 4).take 4) := by
    rw [readBE32_eq big _ lb, BitVec.toNat_ofNat, Nat.mod_eq_of_lt]
    have := beValue_lt ((bytes.drop 4).take 4); rw [lb] at this; exact this
  rw [va, vb]
  by_cases hne : bytes.length ≠ 8 + beValue (bytes.take 4) * 4 + beValue ((bytes.drop 4).take 4) * 32
  · rw [if_pos hne]; left; exact ⟨rfl, fun h => by omega⟩
  rw [if_neg hne]
  simp only [ne_eq, Decidable.not_not] at hne
  right
  obtain ⟨ts, t1, t2, t3, t4⟩ := readPositions_ok big bytes (beValue (bytes.take 4)) 8 (by omega) (by omega)
  obtain ⟨hs, s1, s2, s4⟩ := readHashes_ok bytes (beValue ((bytes.drop 4).take 4))
    (8 + 4 * beValue (bytes.take 4)) (by omega) (by omega)
  rw [show 4 + 4 = 8 from rfl, t1]
  simp only [ok_bind]
  rw [s1]
  simp only [ok_bind]
  rw [cassert_true (by simp; omega)]
  refine ⟨ts, hs, rfl, by omega, t2, s2, by omega, t3, ?_⟩
  rw [t2, s2, ← va, ← vb]
  simp only [BitVec.ofNat_toNat, BitVec.setWidth_eq]
  rw [writeBE32_read big _ la, writeBE32_read big _ lb, t4, s4]
  have e1 : bytes = bytes.take 4 ++ bytes.drop 4 := (List.take_append_drop 4 bytes).symm
  have e2 : bytes.drop 4 = (bytes.drop 4).take 4 ++ bytes.drop 8 := by
    rw [show bytes.drop 8 = (bytes.drop 4).drop 4 by simp, List.take_append_drop]
  have e3 : bytes.drop 8 = (bytes.drop 8).take (4 * beValue (bytes.take 4)) ++
      bytes.drop (8 + 4 * beValue (bytes.take 4)) := by
    rw [← List.drop_drop, List.take_append_drop]
  have e4 : (bytes.drop (8 + 4 * beValue (bytes.take 4))).take (32 * beValue ((bytes.drop 4).take 4)) =
      bytes.drop (8 + 4 * beValue (bytes.take 4)) := by
    apply List.take_of_length_le; simp; omega
  rw [e4, ← e3, ← e2, ← e1]

/-- C12: on every byte string below `2^31` bytes `Unserialize` has no undefined behaviour, in
particular reads only bytes of the input. It returns true exactly when the length matches the two
declared counts and leaves the object alone otherwise. -/
theorem C12_unserialize_safe (big : Bool) (old : BatchProof Hash32) (bytes : List Byte)
    (hlen : bytes.length < 2 ^ 31) :
    ∃ b q, unserialize big old bytes = .ok (b, q) ∧ (b = false → q = old) ∧
      (b = true ↔ 8 ≤ bytes.length ∧
        bytes.length = 8 + 4 * beValue (bytes.take 4) + 32 * beValue ((bytes.drop 4).take 4)) := by
  rcases unserialize_spec big old bytes (by omega) with ⟨h1, h2⟩ | ⟨ts, hs, h1, h2, h3, h4, h5, -⟩
  · exact ⟨false, old, h1, fun _ => rfl, by simp only [Bool.false_eq_true, false_iff]; exact h2⟩
  · refine ⟨true, _, h1, fun h => by simp at h, ?_⟩
    simp only [true_iff]
    exact ⟨h2, by omega⟩

/-- C12, the limit of the guarantee: an input of `2^31` bytes or more whose length matches its
counts overflows the signed `data_offset`, which is undefined behaviour. -/
theorem C12_unserialize_ub (big : Bool) (old : BatchProof Hash32) (bytes : List Byte)
    (hlen : 2 ^ 31 ≤ bytes.length)
    (hm : bytes.length = 8 + 4 * beValue (bytes.take 4) + 32 * beValue ((bytes.drop 4).take 4)) :
    unserialize big old bytes = .error .ub := by
  unfold unserialize
  rw [if_neg (by omega), memRead_ok (by omega)]
  simp only [ok_bind]
  rw [addInt_ok (by omega)]
  simp only [ok_bind]
  rw [memRead_ok (by omega)]
  simp only [ok_bind]
  rw [addInt_ok (by omega)]
  simp only [ok_bind, List.drop_zero, Nat.zero_add]
  have la : (bytes.take 4).length = 4 := by simp; omega
  have lb : ((bytes.drop 4).take 4).length = 4 := by simp; omega
  have va : (readBE32 big (bytes.take 4)).toNat = beValue (bytes.take 4) := by
    rw [readBE32_eq big _ la, BitVec.toNat_ofNat, Nat.mod_eq_of_lt]
    have := beValue_lt (bytes.take 4); rw [la] at this; exact this
  have vb : (readBE32 big ((bytes.drop 4).take 4)).toNat = beValue ((bytes.drop 4).take 4) := by
    rw [readBE32_eq big _ lb, BitVec.toNat_ofNat, Nat.mod_eq_of_lt]
    have := beValue_lt ((bytes.drop 4).take 4); rw [lb] at this; exact this
  rw [va, vb, if_neg (by omega)]
  by_cases h : 8 + 4 * beValue (bytes.take 4) < 2147483648
  · obtain ⟨ts, t1, -⟩ := readPositions_ok big bytes (beValue (bytes.take 4)) 8 (by omega) (by omega)
    rw [show 4 + 4 = 8 from rfl, t1]
    simp only [ok_bind]
    rw [readHashes_ub bytes _ _ h (by omega)]; rfl
  · rw [show 4 + 4 = 8 from rfl, readPositions_ub big bytes _ 8 (by omega) h]; rfl

example : ((0x00000000#8 : Byte) :: List.replicate 7 0#8).length < 2 ^ 31 := by decide

/-! ## C10: round trip -/

theorem mod32_self {ts : List Nat} (ht : ∀ t ∈ ts, t < 2 ^ 32) : ts.map (· % 2 ^ 32) = ts := by
  conv_rhs => rw [← List.map_id ts]
  apply List.map_congr_left
  intro a ha; exact Nat.mod_eq_of_lt (ht a ha)

/-- What comes back for arbitrary targets: their low 32 bits. -/
theorem C10_roundtrip_truncates (b1 b2 : Bool) (targets : List Nat) (hashes : List Hash32)
    (old : List Byte) (hsize : 8 + 4 * targets.length + 32 * hashes.length < 2 ^ 31) :
    ∃ bytes, serialize b1 (BatchProof.mk' targets hashes) old = .ok bytes ∧
      unserialize b2 {} bytes = .ok (true, BatchProof.mk' (targets.map (· % 2 ^ 32)) hashes) := by
  have hsize' : 8 + 4 * targets.length + 32 * hashes.length < 2147483648 := hsize
  have hser := serialize_eq b1 (BatchProof.mk' targets hashes) old hsize'
  simp only [BatchProof.mk'] at hser
  refine ⟨_, hser, ?_⟩
  -- the encoding does not depend on the host
  have hhost : ∀ x : BitVec 32, writeBE32 b1 x = writeBE32 b2 x := by
    intro x; rw [writeBE32_eq, writeBE32_eq]
  have hhostp : encPos b1 targets = encPos b2 targets := by
    unfold encPos; simp only [hhost]
  rw [hhost, hhost, hhostp]
  generalize hbytes : writeBE32 b2 (BitVec.ofNat 32 targets.length) ++
    (writeBE32 b2 (BitVec.ofNat 32 hashes.length) ++ (encPos b2 targets ++ encHash hashes)) = bytes
  have hlen : bytes.length = 8 + 4 * targets.length + 32 * hashes.length := by
    rw [← hbytes]; simp [writeBE32_length]; ring
  have c0 : beValue (bytes.take 4) = targets.length := by
    have l1 := writeBE32_length b2 (BitVec.ofNat 32 targets.length)
    rw [← hbytes, ← l1, List.take_left, beValue_writeBE32, BitVec.toNat_ofNat,
      Nat.mod_eq_of_lt (by omega)]
  have c1 : beValue ((bytes.drop 4).take 4) = hashes.length := by
    have l1 := writeBE32_length b2 (BitVec.ofNat 32 targets.length)
    have l2 := writeBE32_length b2 (BitVec.ofNat 32 hashes.length)
    rw [← hbytes]
    conv_lhs => rw [← l1, List.drop_left, l1, ← l2, List.take_left]
    rw [beValue_writeBE32, BitVec.toNat_ofNat, Nat.mod_eq_of_lt (by omega)]
  rcases unserialize_spec b2 {} bytes (by omega) with ⟨h1, h2⟩ | ⟨ts, hs, h1, h2, h3, h4, h5, h6, h7⟩
  · exact absurd ⟨by omega, by omega⟩ h2
  · rw [h1]
    rw [← hbytes, ← encPos_mod b2 targets] at h7
    have e3 : ts.length = targets.length := by omega
    have e4 : hs.length = hashes.length := by omega
    rw [e3, e4] at h7
    obtain ⟨-, h7⟩ := List.append_inj h7 rfl
    obtain ⟨-, h7⟩ := List.append_inj h7 rfl
    obtain ⟨h7, h8⟩ := List.append_inj h7 (by simp [e3])
    have et := encPos_inj b2 _ _ (by simp [e3]) (by
      intro t ht
      obtain ⟨x, _, rfl⟩ := List.mem_map.1 ht
      exact Nat.mod_lt _ (by positivity)) h6 h7
    have eh := encHash_inj _ _ e4.symm h8
    rw [← et, ← eh]
    simp [BatchProof.mk']

/-- C10: decoding an encoded proof into a fresh object gives back the same proof, with the same
sorted targets, on any pair of hosts. -/
theorem C10_roundtrip (b1 b2 : Bool) (targets : List Nat) (hashes : List Hash32) (old : List Byte)
    (hsize : 8 + 4 * targets.length + 32 * hashes.length < 2 ^ 31) (ht : ∀ t ∈ targets, t < 2 ^ 32) :
    ∃ bytes, serialize b1 (BatchProof.mk' targets hashes) old = .ok bytes ∧
      unserialize b2 {} bytes = .ok (true, BatchProof.mk' targets hashes) := by
  have := C10_roundtrip_truncates b1 b2 targets hashes old hsize
  rwa [mod32_self ht] at this

/-- C10, the limit: a proof of leaf `2^32` comes back as a proof of leaf `0`. -/
theorem C10_truncation_witness :
    ∃ bytes, serialize false (BatchProof.mk' [2 ^ 32] []) [] = .ok bytes ∧
      unserialize false {} bytes = .ok (true, BatchProof.mk' [0] []) :=
  C10_roundtrip_truncates false false [2 ^ 32] [] [] (by decide)

example : (8 + 4 * [7, 3].length + 32 * ([] : List Hash32).length < 2 ^ 31) ∧
    ∀ t ∈ [7, 3], t < 2 ^ 32 := by decide

/-! ## C11: canonicity -/

/-- Only inputs below `2^31` bytes are accepted. -/
theorem unserialize_short {b1 : Bool} {old p : BatchProof Hash32} {bytes : List Byte}
    (h : unserialize b1 old bytes = .ok (true, p)) : bytes.length < 2147483648 := by
  by_contra hc
  by_cases hm : bytes.length = 8 + 4 * beValue (bytes.take 4) + 32 * beValue ((bytes.drop 4).take 4)
  · rw [C12_unserialize_ub b1 old bytes (by omega) hm] at h; simp at h
  · -- a mismatching length is rejected whatever the size
    unfold unserialize at h
    rw [if_neg (by omega), memRead_ok (by omega)] at h
    simp only [ok_bind] at h
    rw [addInt_ok (by omega)] at h
    simp only [ok_bind] at h
    rw [memRead_ok (by omega)] at h
    simp only [ok_bind] at h
    rw [addInt_ok (by omega)] at h
    simp only [ok_bind, List.drop_zero, Nat.zero_add] at h
    have la : (bytes.take 4).length = 4 := by simp; omega
    have lb : ((bytes.drop 4).take 4).length = 4 := by simp; omega
    have va : (readBE32 b1 (bytes.take 4)).toNat = beValue (bytes.take 4) := by
      rw [readBE32_eq b1 _ la, BitVec.toNat_ofNat, Nat.mod_eq_of_lt]
      have := beValue_lt (bytes.take 4); rw [la] at this; exact this
    have vb : (readBE32 b1 ((bytes.drop 4).take 4)).toNat = beValue ((bytes.drop 4).take 4) := by
      rw [readBE32_eq b1 _ lb, BitVec.toNat_ofNat, Nat.mod_eq_of_lt]
      have := beValue_lt ((bytes.drop 4).take 4); rw [lb] at this; exact this
    rw [va, vb, if_pos (by omega)] at h
    simp at h

/-- C11: every accepted byte string is reproduced byte for byte by `Serialize`. -/
theorem C11_canonical (b1 b2 : Bool) (old p : BatchProof Hash32) (bytes out : List Byte)
    (h : unserialize b1 old bytes = .ok (true, p)) :
    serialize b2 p out = .ok bytes := by
  have hlen := unserialize_short h
  rcases unserialize_spec b1 old bytes hlen with ⟨h1, h2⟩ | ⟨ts, hs, h1, h2, h3, h4, h5, h6, h7⟩
  · rw [h1] at h; simp at h
  · rw [h1] at h
    simp only [Except.ok.injEq, Prod.mk.injEq, true_and] at h
    subst h
    have hhost : ∀ x : BitVec 32, writeBE32 b1 x = writeBE32 b2 x := by
      intro x; rw [writeBE32_eq, writeBE32_eq]
    have hhostp : encPos b1 ts = encPos b2 ts := by unfold encPos; simp only [hhost]
    rw [serialize_eq b2 _ out (by simp only; omega)]
    simp only
    rw [← hhost, ← hhost, ← hhostp, ← h7]

/-- C11: no two distinct byte strings decode to proofs with the same targets and hashes. -/
theorem C11_injective (big : Bool) (old p q : BatchProof Hash32) (x y : List Byte)
    (hx : unserialize big old x = .ok (true, p)) (hy : unserialize big old y = .ok (true, q))
    (ht : p.targets = q.targets) (hh : p.hashes = q.hashes) : x = y := by
  have h1 := C11_canonical big big old p x [] hx
  have h2 := C11_canonical big big old q y [] hy
  have : serialize big p [] = serialize big q [] := by unfold serialize; rw [ht, hh]
  rw [h1, h2] at this
  simpa using this

example : ∃ p, unserialize false {} [0, 0, 0, 1, 0, 0, 0, 0, 0, 0, 0, 5] = .ok (true, p) :=
  ⟨_, rfl⟩

/-! ## C13: decoding into a used object -/

/-- C13 is false: the sorted targets accumulate, so a reused object ends up with sorted targets
that were never in the bytes. -/
theorem C13_false : ∃ bytes old q q', unserialize false old bytes = .ok (true, q) ∧
    unserialize false {} bytes = .ok (true, q') ∧ q.sorted ≠ q'.sorted ∧
    q.sorted = [5, 7] ∧ q.targets = [5] :=
  ⟨[0, 0, 0, 1, 0, 0, 0, 0, 0, 0, 0, 5], BatchProof.mk' [7] [], _, _, rfl, rfl, by decide, by decide, rfl⟩

/-- C13, what holds: the result, the targets and the proof hashes depend only on the bytes, and so
does the whole object if the previous sorted targets were empty. Missing: the sorted targets of a
used object. -/
theorem C13_partial (big : Bool) (old old' : BatchProof Hash32) (bytes : List Byte)
    (hlen : bytes.length < 2 ^ 31) :
    ∃ b q q', unserialize big old bytes = .ok (b, q) ∧ unserialize big old' bytes = .ok (b, q') ∧
      (b = true → q.targets = q'.targets ∧ q.hashes = q'.hashes ∧
        q.sorted = St.sortU64 (old.sorted ++ q.targets) ∧ (old.sorted = old'.sorted → q = q')) := by
  rcases unserialize_spec big old bytes hlen with ⟨h1, h2⟩ | ⟨ts, hs, h1, h2, h3, h4, h5, h6, h7⟩ <;>
    rcases unserialize_spec big old' bytes hlen with ⟨g1, g2⟩ | ⟨ts', hs', g1, g2, g3, g4, g5, g6, g7⟩
  · exact ⟨false, _, _, h1, g1, fun h => by simp at h⟩
  · exact absurd ⟨g2, by omega⟩ h2
  · exact absurd ⟨h2, by omega⟩ g2
  · rw [h7] at g7
    have e3 : ts.length = ts'.length := by omega
    have e4 : hs.length = hs'.length := by omega
    rw [e3, e4] at g7
    obtain ⟨-, g7⟩ := List.append_inj g7 rfl
    obtain ⟨-, g7⟩ := List.append_inj g7 rfl
    obtain ⟨g7, g8⟩ := List.append_inj g7 (by simp [e3])
    have et := encPos_inj big _ _ e3 h6 g6 g7
    have eh := encHash_inj _ _ e4 g8
    subst et eh
    exact ⟨true, _, _, h1, g1, fun _ => ⟨rfl, rfl, rfl, fun h => by rw [h]⟩⟩

/-- C13, the sorted targets: an accepted proof leaves the old sorted targets and the new targets, in ascending
order. Hence the object is the one that a new object would have become exactly if it had no sorted targets before. -/
theorem C13_exact (big : Bool) (old q q' : BatchProof Hash32) (bytes : List Byte) (hlen : bytes.length < 2 ^ 31)
    (h : unserialize big old bytes = .ok (true, q)) (h' : unserialize big {} bytes = .ok (true, q')) :
    q.sorted.Pairwise (· ≤ ·) ∧ q.sorted.Perm (old.sorted ++ q.targets) ∧ (q = q' ↔ old.sorted = []) := by
  obtain ⟨b, r, r', h1, h2, h3⟩ := C13_partial big old {} bytes hlen
  rw [h1] at h
  rw [h2] at h'
  simp only [Except.ok.injEq, Prod.mk.injEq] at h h'
  obtain ⟨rfl, rfl⟩ := h
  obtain ⟨-, rfl⟩ := h'
  obtain ⟨e1, e2, e3, e4⟩ := h3 rfl
  obtain ⟨c, t, t', g1, g2, g3⟩ := C13_partial big {} {} bytes hlen
  have e5 : r'.sorted = St.sortU64 ([] ++ r'.targets) := by
    rw [h2] at g1
    simp only [Except.ok.injEq, Prod.mk.injEq] at g1
    obtain ⟨rfl, rfl⟩ := g1
    exact (g3 rfl).2.2.1
  refine ⟨e3 ▸ sort_le _, e3 ▸ sort_perm _, fun h => ?_, fun h => e4 h⟩
  have hl := congrArg List.length (h ▸ e3 : r'.sorted = St.sortU64 (old.sorted ++ r.targets))
  rw [e5, (sort_perm _).length_eq, (sort_perm _).length_eq, List.length_append, List.length_append, e1] at hl
  apply List.length_eq_zero_iff.1
  simpa using hl

/-! ## C14, C15: undo batches -/

theorem serializeUndo_eq (big : Bool) (u : UndoBatch Hash32) (old : List Byte)
    (h : 8 + 4 * u.positions.length + 32 * u.hashes.length < 2147483648) :
    serializeUndo big u old = .ok (writeBE32 big (BitVec.ofNat 32 u.numAdds) ++
      (writeBE32 big (BitVec.ofNat 32 u.positions.length) ++
        (encPos big u.positions ++ encHash u.hashes))) := by
  unfold serializeUndo
  exact serialize_shape big _ _ _ _ _ (by rw [vecResize_length]) h

/-- Everything `UndoBatch::Unserialize` does when the declared count cannot wrap and the input is
below `2^31` bytes. -/
theorem unserializeUndo_spec (big : Bool) (old : UndoBatch Hash32) (bytes : List Byte)
    (hlen : bytes.length < 2147483648) (hcount : 8 + 36 * beValue ((bytes.drop 4).take 4) < 2 ^ 32) :
    (∃ q, unserializeUndo big old bytes = .ok (false, q) ∧ q.positions = old.positions ∧
      q.hashes = old.hashes ∧
      ¬ (8 ≤ bytes.length ∧ bytes.length = 8 + 36 * beValue ((bytes.drop 4).take 4))) ∨
    ∃ ts hs, unserializeUndo big old bytes =
        .ok (true, { numAdds := beValue (bytes.take 4), positions := ts, hashes := hs }) ∧
      8 ≤ bytes.length ∧ bytes.length = 8 + 36 * beValue ((bytes.drop 4).take 4) ∧
      ts.length = beValue ((bytes.drop 4).take 4) ∧ hs.length = ts.length ∧
      (∀ t ∈ ts, t < 2 ^ 32) ∧
      bytes = writeBE32 big (BitVec.ofNat 32 (beValue (bytes.take 4))) ++
        (writeBE32 big (BitVec.ofNat 32 ts.length) ++ (encPos big ts ++ encHash hs)) := by
  unfold unserializeUndo
  by_cases h8 : bytes.length < 8
  · rw [if_pos h8]; left; exact ⟨old, rfl, rfl, rfl, fun h => by omega⟩
  rw [if_neg h8, memRead_ok (by omega)]
  simp only [ok_bind]
  rw [addInt_ok (by omega)]
  simp only [ok_bind]
  rw [memRead_ok (by omega)]
  simp only [ok_bind]
  rw [addInt_ok (by omega)]
  simp only [ok_bind, List.drop_zero, Nat.zero_add]
  have la : (bytes.take 4).length = 4 := by simp; omega
  have lb : ((bytes.drop 4).take 4).length = 4 := by simp; omega
  have va : (readBE32 big (bytes.take 4)).toNat = beValue (bytes.take 4) := by
    rw [readBE32_eq big _ la, BitVec.toNat_ofNat, Nat.mod_eq_of_lt]
    have := beValue_lt (bytes.take 4); rw [la] at this; exact this
  have vb : (readBE32 big ((bytes.drop 4).take 4)).toNat = beValue ((bytes.drop 4).take 4) := by
    rw [readBE32_eq big _ lb, BitVec.toNat_ofNat, Nat.mod_eq_of_lt]
    have := beValue_lt ((bytes.drop 4).take 4); rw [lb] at this; exact this
  rw [va, vb]
  have hmod : (4 + 4 + 4 * beValue ((bytes.drop 4).take 4) + 32 * beValue ((bytes.drop 4).take 4)) % 2 ^ 32 =
      8 + 36 * beValue ((bytes.drop 4).take 4) := by
    rw [Nat.mod_eq_of_lt (by omega)]; ring
  rw [hmod]
  by_cases hne : bytes.length ≠ 8 + 36 * beValue ((bytes.drop 4).take 4)
  · rw [if_pos hne]; left; exact ⟨_, rfl, rfl, rfl, fun h => by omega⟩
  rw [if_neg hne]
  simp only [ne_eq, Decidable.not_not] at hne
  right
  obtain ⟨ts, t1, t2, t3, t4⟩ := readPositions_ok big bytes (beValue ((bytes.drop 4).take 4)) 8 (by omega) (by omega)
  obtain ⟨hs, s1, s2, s4⟩ := readHashes_ok bytes (beValue ((bytes.drop 4).take 4))
    (8 + 4 * beValue ((bytes.drop 4).take 4)) (by omega) (by omega)
  rw [show 4 + 4 = 8 from rfl, t1]
  simp only [ok_bind]
  rw [s1]
  simp only [ok_bind]
  rw [cassert_true (by simp; omega)]
  refine ⟨ts, hs, rfl, by omega, hne, t2, by omega, t3, ?_⟩
  rw [t2, ← va, ← vb]
  simp only [BitVec.ofNat_toNat, BitVec.setWidth_eq]
  rw [writeBE32_read big _ la, writeBE32_read big _ lb, t4, s4]
  have e1 : bytes = bytes.take 4 ++ bytes.drop 4 := (List.take_append_drop 4 bytes).symm
  have e2 : bytes.drop 4 = (bytes.drop 4).take 4 ++ bytes.drop 8 := by
    rw [show bytes.drop 8 = (bytes.drop 4).drop 4 by simp, List.take_append_drop]
  generalize beValue ((bytes.drop 4).take 4) = k at *
  have e3 : bytes.drop 8 = (bytes.drop 8).take (4 * k) ++ bytes.drop (8 + 4 * k) := by
    rw [← List.drop_drop, List.take_append_drop]
  have e4 : (bytes.drop (8 + 4 * k)).take (32 * k) = bytes.drop (8 + 4 * k) := by
    apply List.take_of_length_le; simp; omega
  rw [e4, ← e3, ← e2, ← e1]

/-- C14: an undo batch survives serialization, on any pair of hosts, into any object. -/
theorem C14_roundtrip (b1 b2 : Bool) (u prev : UndoBatch Hash32) (old : List Byte)
    (ha : u.numAdds < 2 ^ 32) (hp : ∀ p ∈ u.positions, p < 2 ^ 32)
    (hl : u.hashes.length = u.positions.length)
    (hsize : 8 + 36 * u.positions.length < 2 ^ 31) :
    ∃ bytes, serializeUndo b1 u old = .ok bytes ∧ unserializeUndo b2 prev bytes = .ok (true, u) := by
  refine ⟨_, serializeUndo_eq b1 u old (by omega), ?_⟩
  have hhost : ∀ x : BitVec 32, writeBE32 b1 x = writeBE32 b2 x := by
    intro x; rw [writeBE32_eq, writeBE32_eq]
  have hhostp : encPos b1 u.positions = encPos b2 u.positions := by unfold encPos; simp only [hhost]
  rw [hhost, hhost, hhostp]
  generalize hbytes : writeBE32 b2 (BitVec.ofNat 32 u.numAdds) ++
    (writeBE32 b2 (BitVec.ofNat 32 u.positions.length) ++
      (encPos b2 u.positions ++ encHash u.hashes)) = bytes
  have hlen : bytes.length = 8 + 36 * u.positions.length := by
    rw [← hbytes]; simp [writeBE32_length, hl]; ring
  have c0 : beValue (bytes.take 4) = u.numAdds := by
    have l1 := writeBE32_length b2 (BitVec.ofNat 32 u.numAdds)
    rw [← hbytes, ← l1, List.take_left, beValue_writeBE32, BitVec.toNat_ofNat,
      Nat.mod_eq_of_lt (by omega)]
  have c1 : beValue ((bytes.drop 4).take 4) = u.positions.length := by
    have l1 := writeBE32_length b2 (BitVec.ofNat 32 u.numAdds)
    have l2 := writeBE32_length b2 (BitVec.ofNat 32 u.positions.length)
    rw [← hbytes]
    conv_lhs => rw [← l1, List.drop_left, l1, ← l2, List.take_left]
    rw [beValue_writeBE32, BitVec.toNat_ofNat, Nat.mod_eq_of_lt (by omega)]
  rcases unserializeUndo_spec b2 prev bytes (by omega) (by omega) with
    ⟨q, -, -, -, h2⟩ | ⟨ts, hs, h1, h2, h3, h4, h5, h6, h7⟩
  · exact absurd ⟨by omega, by omega⟩ h2
  · rw [h1]
    rw [c0, ← hbytes] at h7
    have e3 : ts.length = u.positions.length := by omega
    rw [e3] at h7
    obtain ⟨-, h7⟩ := List.append_inj h7 rfl
    obtain ⟨-, h7⟩ := List.append_inj h7 rfl
    obtain ⟨h7, h8⟩ := List.append_inj h7 (by simp [e3])
    have et := encPos_inj b2 _ _ (by simp [e3]) hp h6 h7
    have eh := encHash_inj _ _ (by omega) h8
    rw [c0, ← et, ← eh]

example : (3 : Nat) < 2 ^ 32 ∧ (∀ p ∈ [2, 9], p < 2 ^ 32) ∧ 8 + 36 * [2, 9].length < 2 ^ 31 := by decide

/-- C15 is false: the length check is computed modulo `2^32`, so this 8-byte input with a declared
count of `2^30` passes it and the decoder reads behind the input. -/
theorem C15_false : unserializeUndo false ⟨0, [], []⟩ [0, 0, 0, 0, 0x40, 0, 0, 0] = .error .ub := by
  rfl

/-- C15, what holds: if the declared count does not make the length computation wrap, the decoder
has no undefined behaviour on inputs below `2^31` bytes; it accepts exactly when the length
matches. Missing: counts of `(2^32 - 8) / 36` and more (refuted above). -/
theorem C15_partial (big : Bool) (old : UndoBatch Hash32) (bytes : List Byte)
    (hlen : bytes.length < 2 ^ 31) (hcount : 8 + 36 * beValue ((bytes.drop 4).take 4) < 2 ^ 32) :
    ∃ b q, unserializeUndo big old bytes = .ok (b, q) ∧
      (b = true ↔ 8 ≤ bytes.length ∧ bytes.length = 8 + 36 * beValue ((bytes.drop 4).take 4)) ∧
      (b = false → q.positions = old.positions ∧ q.hashes = old.hashes) ∧
      (b = true → serializeUndo big q [] = .ok bytes) := by
  rcases unserializeUndo_spec big old bytes hlen hcount with
    ⟨q, h1, h2, h3, h4⟩ | ⟨ts, hs, h1, h2, h3, h4, h5, h6, h7⟩
  · exact ⟨false, q, h1, by simp only [Bool.false_eq_true, false_iff]; exact h4, fun _ => ⟨h2, h3⟩,
      fun h => by simp at h⟩
  · refine ⟨true, _, h1, by simp only [true_iff]; exact ⟨h2, h3⟩, fun h => by simp at h, fun _ => ?_⟩
    rw [serializeUndo_eq _ _ _ (by simp only; omega)]
    simp only
    rw [← h7]

example : (8 : Nat) + 36 * beValue (([0, 0, 0, 1, 0, 0, 0, 0] : List Byte).drop 4 |>.take 4) < 2 ^ 32 := by
  decide

theorem undo_header (big : Bool) (old : UndoBatch Hash32) (bytes : List Byte) (h8 : 8 ≤ bytes.length) :
    unserializeUndo big old bytes =
      if bytes.length ≠ (4 + 4 + 4 * beValue ((bytes.drop 4).take 4) + 32 * beValue ((bytes.drop 4).take 4)) % 2 ^ 32 then
        .ok (false, { old with numAdds := beValue (bytes.take 4) })
      else (do
        let (ts, off) ← readPositions big bytes (beValue ((bytes.drop 4).take 4)) 8
        let (hs, off) ← readHashes bytes (beValue ((bytes.drop 4).take 4)) off
        cassert (off = bytes.length)
        return (true, { numAdds := beValue (bytes.take 4), positions := ts, hashes := hs })) := by
  unfold unserializeUndo
  rw [if_neg (by omega), memRead_ok (by omega)]
  simp only [ok_bind]
  rw [addInt_ok (by omega)]
  simp only [ok_bind]
  rw [memRead_ok (by omega)]
  simp only [ok_bind]
  rw [addInt_ok (by omega)]
  simp only [ok_bind, List.drop_zero, Nat.zero_add]
  have la : (bytes.take 4).length = 4 := by simp; omega
  have lb : ((bytes.drop 4).take 4).length = 4 := by simp; omega
  have va : (readBE32 big (bytes.take 4)).toNat = beValue (bytes.take 4) := by
    rw [readBE32_eq big _ la, BitVec.toNat_ofNat, Nat.mod_eq_of_lt]
    have := beValue_lt (bytes.take 4); rw [la] at this; exact this
  have vb : (readBE32 big ((bytes.drop 4).take 4)).toNat = beValue ((bytes.drop 4).take 4) := by
    rw [readBE32_eq big _ lb, BitVec.toNat_ofNat, Nat.mod_eq_of_lt]
    have := beValue_lt ((bytes.drop 4).take 4); rw [lb] at this; exact this
  rw [va, vb]
  rfl

theorem readPositions_cases (big : Bool) (bytes : List Byte) : ∀ (k off : Nat),
    readPositions big bytes k off = .error .ub ∨ ∃ ts, readPositions big bytes k off = .ok (ts, off + 4 * k) := by
  intro k
  induction k with
  | zero => intro off; right; exact ⟨[], rfl⟩
  | succ k ih =>
    intro off
    rw [readPositions]
    unfold memRead
    split
    · rw [ok_bind]
      by_cases h : off + 4 < 2147483648
      · rw [addInt_ok h, ok_bind]
        rcases ih (off + 4) with h | ⟨ts, h⟩
        · left; rw [h]; rfl
        · right
          refine ⟨(readBE32 big ((bytes.drop off).take 4)).toNat :: ts, ?_⟩
          rw [h]
          simp only [ok_bind, pure_ok]
          rw [show off + 4 + 4 * k = off + 4 * (k + 1) by ring]
      · left; rw [addInt_ub h]; rfl
    · left; rfl

/-- C15, every input: what `UndoBatch::Unserialize` does is decided by the length of the input and the
declared count `c` alone.

* An input shorter than its header, or whose length is not `8 + 36 c` modulo `2^32`, is rejected. The
  vectors keep their values, but unless the header is incomplete the number of additions is overwritten.
* Of the other inputs those with `8 + 36 c < 2^31` are accepted.
* For all others the behaviour is undefined. -/
theorem C15_exact (big : Bool) (old : UndoBatch Hash32) (bytes : List Byte) :
    (bytes.length < 8 → unserializeUndo big old bytes = .ok (false, old)) ∧
    (8 ≤ bytes.length → bytes.length ≠ (8 + 36 * beValue ((bytes.drop 4).take 4)) % 2 ^ 32 →
      unserializeUndo big old bytes = .ok (false, { old with numAdds := beValue (bytes.take 4) })) ∧
    (8 ≤ bytes.length → bytes.length = 8 + 36 * beValue ((bytes.drop 4).take 4) → bytes.length < 2 ^ 31 →
      ∃ q, unserializeUndo big old bytes = .ok (true, q) ∧ serializeUndo big q [] = .ok bytes) ∧
    (8 ≤ bytes.length → bytes.length = (8 + 36 * beValue ((bytes.drop 4).take 4)) % 2 ^ 32 →
      2 ^ 31 ≤ 8 + 36 * beValue ((bytes.drop 4).take 4) → unserializeUndo big old bytes = .error .ub) := by
  have hm : 4 + 4 + 4 * beValue ((bytes.drop 4).take 4) + 32 * beValue ((bytes.drop 4).take 4) =
      8 + 36 * beValue ((bytes.drop 4).take 4) := by ring
  refine ⟨fun h => ?_, fun h8 hne => ?_, fun h8 heq hlt => ?_, fun h8 heq hbig => ?_⟩
  · unfold unserializeUndo
    rw [if_pos h]
  · rw [undo_header big old bytes h8, hm, if_pos hne]
  · obtain ⟨b, q, h1, h2, -, h4⟩ := C15_partial big old bytes hlt (by omega)
    have hb := h2.2 ⟨h8, heq⟩
    subst hb
    exact ⟨q, h1, h4 rfl⟩
  · rw [undo_header big old bytes h8, hm, if_neg (by simpa using heq)]
    by_cases hp : 8 + 4 * beValue ((bytes.drop 4).take 4) < 2147483648
    · rcases readPositions_cases big bytes (beValue ((bytes.drop 4).take 4)) 8 with h | ⟨ts, h⟩
      · rw [h, error_bind]
      · rw [h, ok_bind]
        simp only
        rw [readHashes_ub bytes _ _ hp (by omega), error_bind]
    · rw [readPositions_ub big bytes _ 8 (by omega) hp, error_bind]

/-- Each case of `C15_exact` occurs: an incomplete header, a length that does not match (the number of
additions changes from 5 to 7), an accepted input, and an 8-byte input declaring `2^30` positions. -/
example : unserializeUndo false ⟨5, [1], []⟩ [0, 0, 0] = .ok (false, ⟨5, [1], []⟩) ∧
    unserializeUndo false ⟨5, [1], []⟩ [0, 0, 0, 7, 0, 0, 0, 1] = .ok (false, ⟨7, [1], []⟩) ∧
    unserializeUndo false ⟨5, [1], []⟩ [0, 0, 0, 7, 0, 0, 0, 0] = .ok (true, ⟨7, [], []⟩) ∧
    unserializeUndo false ⟨5, [1], []⟩ [0, 0, 0, 7, 0x40, 0, 0, 0] = .error .ub := ⟨rfl, rfl, rfl, rfl⟩

end Utreexo
