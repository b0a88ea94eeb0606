import Verif.Proof.Sha
import Verif.Model.Accumulator

/-!
# C33, C34, C36: the hash function

The specification is FIPS 180-4, see `Verif/Spec/Sha512.lean`. `big` is the byte order of the host and
`junk` the uninitialised buffer of a new object: the results depend on neither.
-/

namespace Utreexo
open Sha

/-- Consecutive calls of `Write`. -/
def Sha.writes (big : Bool) (x : Hasher) (chunks : List (List Byte)) : Res Hasher := chunks.foldlM (write big) x

theorem Sha.writes_ok (big : Bool) {iv : Spec.Sha.Regs} : ∀ (chunks : List (List Byte)) {m : List Byte} {x : Hasher},
    Absorbed iv m x →
    ∃ x', writes big x chunks = .ok x' ∧ Absorbed iv (m ++ chunks.flatten) x' := by
  intro chunks
  induction chunks with
  | nil => intro m x hx; exact ⟨x, rfl, by simpa using hx⟩
  | cons c cs ih =>
    intro m x hx
    obtain ⟨x1, a1, a2⟩ := write_ok big hx c
    obtain ⟨x2, b1, b2⟩ := ih a2
    refine ⟨x2, ?_, ?_⟩
    · unfold writes at b1 ⊢
      rw [List.foldlM_cons, a1, ok_bind, b1]
    · rw [List.flatten_cons, ← List.append_assoc]; exact b2

theorem Sha.finalize_low (big : Bool) {iv : Spec.Sha.Regs} {m : List Byte} {x : Hasher} (hx : Absorbed iv m x) :
    finalize big x = .ok (Spec.Sha.digest (Spec.Sha.hashLow iv m)) := by
  obtain ⟨x', a1, a2⟩ := finish_low big hx
  unfold finalize
  rw [a1, ok_bind, ← a2, digest_eq big]; rfl

theorem Sha.finalize256_low (big : Bool) {iv : Spec.Sha.Regs} {m : List Byte} {x : Hasher} (hx : Absorbed iv m x) :
    finalize256 big x = .ok ((Spec.Sha.digest (Spec.Sha.hashLow iv m)).take 32) := by
  obtain ⟨x', a1, a2⟩ := finish_low big hx
  unfold finalize256
  rw [a1, ok_bind, ← a2, digest_eq big]
  simp only [pure_ok]
  apply congrArg Except.ok
  have hl := Codec.writeBE64_length big
  generalize hp : Codec.writeBE64 big x'.s.a ++ Codec.writeBE64 big x'.s.b ++ Codec.writeBE64 big x'.s.c ++
    Codec.writeBE64 big x'.s.d = p
  have hpl : p.length = 32 := by rw [← hp]; simp [hl]
  simp only [List.append_assoc (as := p)]
  rw [List.take_append_of_le_length (by omega), List.take_of_length_le (by omega)]

theorem Sha.hashLow_short (iv : Spec.Sha.Regs) (m : List Byte) (h : m.length < 2 ^ 61) :
    Spec.Sha.hashLow iv m = Spec.Sha.hashFrom iv m := by
  unfold Spec.Sha.hashLow Spec.Sha.hashFrom
  rw [padLow_short m h]

theorem Sha.finalize_ok (big : Bool) {iv : Spec.Sha.Regs} {m : List Byte} {x : Hasher} (hx : Absorbed iv m x)
    (h : m.length < 2 ^ 61) : finalize big x = .ok (Spec.Sha.digest (Spec.Sha.hashFrom iv m)) := by
  rw [finalize_low big hx, hashLow_short iv m h]

theorem Sha.finalize256_ok (big : Bool) {iv : Spec.Sha.Regs} {m : List Byte} {x : Hasher} (hx : Absorbed iv m x)
    (h : m.length < 2 ^ 61) : finalize256 big x = .ok ((Spec.Sha.digest (Spec.Sha.hashFrom iv m)).take 32) := by
  rw [finalize256_low big hx, hashLow_short iv m h]

/-- C34, messages of any length: the digest depends on the concatenation of the chunks only. It is the one of FIPS 180-4
with the length in bits reduced modulo `2 ^ 64`, as the counter of the object has 64 bits. -/
theorem C34_split (big : Bool) (junk : List Byte) (hj : junk.length = 128) (chunks : List (List Byte)) :
    (writes big (new512 junk) chunks >>= finalize big) =
      .ok (Spec.Sha.digest (Spec.Sha.hashLow Spec.Sha.iv512 chunks.flatten)) ∧
    (writes big (new 64 junk) chunks >>= finalize big) =
      .ok (Spec.Sha.digest (Spec.Sha.hashLow Spec.Sha.iv512 chunks.flatten)) ∧
    (writes big (new 32 junk) chunks >>= finalize256 big) =
      .ok ((Spec.Sha.digest (Spec.Sha.hashLow Spec.Sha.iv256 chunks.flatten)).take 32) := by
  obtain ⟨x, a1, a2⟩ := writes_ok big chunks (new_absorbed init512 junk hj)
  obtain ⟨y, b1, b2⟩ := writes_ok big chunks (new_absorbed init256 junk hj)
  rw [init512_eq] at a2
  rw [init256_eq] at b2
  have : (writes big (new512 junk) chunks >>= finalize big) =
      .ok (Spec.Sha.digest (Spec.Sha.hashLow Spec.Sha.iv512 chunks.flatten)) := by
    unfold new512
    rw [a1, ok_bind, finalize_low big a2]; rfl
  refine ⟨this, this, ?_⟩
  unfold new
  rw [if_pos rfl, b1, ok_bind, finalize256_low big b2]; rfl

/-- C34: the digest of a message written in any chunks to a new SHA-512 hasher is the SHA-512
digest of the concatenation. -/
theorem C34_sha512 (big : Bool) (junk : List Byte) (hj : junk.length = 128) (chunks : List (List Byte))
    (h : chunks.flatten.length < 2 ^ 61) :
    (writes big (new512 junk) chunks >>= finalize big) = .ok (Spec.Sha.sha512 chunks.flatten) ∧
    (writes big (new 64 junk) chunks >>= finalize big) = .ok (Spec.Sha.sha512 chunks.flatten) := by
  obtain ⟨x, a1, a2⟩ := writes_ok big chunks (new_absorbed init512 junk hj)
  rw [init512_eq] at a2
  have : (writes big (new512 junk) chunks >>= finalize big) = .ok (Spec.Sha.sha512 chunks.flatten) := by
    unfold new512
    rw [a1, ok_bind, finalize_ok big a2 (by simpa using h)]; rfl
  exact ⟨this, this⟩

/-- C34: the same for SHA-512/256. -/
theorem C34_sha512_256 (big : Bool) (junk : List Byte) (hj : junk.length = 128) (chunks : List (List Byte))
    (h : chunks.flatten.length < 2 ^ 61) :
    (writes big (new 32 junk) chunks >>= finalize256 big) = .ok (Spec.Sha.sha512_256 chunks.flatten) := by
  obtain ⟨x, a1, a2⟩ := writes_ok big chunks (new_absorbed init256 junk hj)
  rw [init256_eq] at a2
  unfold new
  rw [if_pos rfl, a1, ok_bind, finalize256_ok big a2 (by simpa using h)]; rfl

theorem Sha.sha512_256_length (m : List Byte) : (Spec.Sha.sha512_256 m).length = 32 := by
  unfold Spec.Sha.sha512_256
  generalize Spec.Sha.hashFrom _ _ = r
  obtain ⟨a, b, c, d, e, f, g, h⟩ := r
  have := digest_eq false ⟨a, b, c, d, e, f, g, h⟩
  simp only [S8.regs] at this
  rw [this, List.length_take]
  simp [Codec.writeBE64_length]

/-- The hash operations of the library: the parent hash is SHA-512/256 of the concatenation, the
empty hash is all zero. The properties of the forest hold for any hash operations, in particular
for these. -/
@[instance_reducible] def shaOps : HashOps Hash32 :=
  ⟨fun l r => ⟨Spec.Sha.sha512_256 (l.val ++ r.val), sha512_256_length _⟩, ⟨List.replicate 32 0, List.length_replicate⟩⟩

/-- C33: `ParentHash` is SHA-512/256 of the concatenation of the two hashes. -/
theorem C33_parentHash (big : Bool) (junk : List Byte) (hj : junk.length = 128) (l r : Hash32) :
    parentHash big junk l r = .ok (Spec.Sha.sha512_256 (l.val ++ r.val)) ∧
    parentHash big junk l r = .ok (shaOps.ph l r).val := by
  have h := C34_sha512_256 big junk hj [l.val, r.val] (by simp [l.property, r.property])
  have : parentHash big junk l r = .ok (Spec.Sha.sha512_256 (l.val ++ r.val)) := by
    rw [show l.val ++ r.val = [l.val, r.val].flatten by simp, ← h]
    unfold parentHash writes
    simp [List.foldlM_cons, bind_assoc]
  exact ⟨this, this⟩

/-- C36 for the SHA-512 hasher: after any writes, `Reset` makes it behave like a new one.
Missing: the SHA-512/256 hasher. There the claim is false, see `C36_false`. -/
theorem C36_reset_partial (big : Bool) (junk junk' : List Byte) (hj : junk.length = 128) (hj' : junk'.length = 128)
    (before after : List (List Byte)) :
    (do let x ← writes big (new512 junk) before
        let x ← writes big (reset x) after
        finalize big x) = (writes big (new512 junk') after >>= finalize big) := by
  obtain ⟨x, a1, a2⟩ := writes_ok big before (new_absorbed init512 junk hj)
  unfold new512 at *
  rw [a1, ok_bind]
  obtain ⟨y, b1, b2⟩ := writes_ok big after (new_absorbed init512 x.buf a2.buf)
  obtain ⟨z, c1, c2⟩ := writes_ok big after (new_absorbed init512 junk' hj')
  unfold reset
  have b1' : writes big { x with s := init512, bytes := 0 } after = .ok y := b1
  rw [b1', ok_bind, finalize_low big b2, c1, ok_bind, finalize_low big c2]

/-- C36, every hasher: whatever was done with it and whichever constructor made it, after `Reset` it computes
SHA-512 of what is written from then on; `Finalize256` gives the first 32 bytes of that, which is not SHA-512/256. -/
theorem C36_exact (big : Bool) (x : Hasher) (hx : x.buf.length = 128) (after : List (List Byte))
    (ha : after.flatten.length < 2 ^ 61) :
    (writes big (reset x) after >>= finalize big) = .ok (Spec.Sha.sha512 after.flatten) ∧
    (writes big (reset x) after >>= finalize256 big) = .ok ((Spec.Sha.sha512 after.flatten).take 32) := by
  obtain ⟨y, b1, b2⟩ := writes_ok big after (new_absorbed init512 x.buf hx)
  rw [init512_eq] at b2
  have b1' : writes big (reset x) after = .ok y := b1
  rw [b1', ok_bind, ok_bind, finalize_ok big b2 (by simpa using ha), finalize256_ok big b2 (by simpa using ha)]
  exact ⟨rfl, rfl⟩

/-- The buffer has 128 bytes after any writes to a hasher of either kind. -/
theorem C36_buffer (big : Bool) (size : ℕ) (junk : List Byte) (hj : junk.length = 128) (before : List (List Byte)) :
    ∃ x, writes big (new size junk) before = .ok x ∧ x.buf.length = 128 := by
  unfold new
  split
  · obtain ⟨x, a1, a2⟩ := writes_ok big before (new_absorbed init256 junk hj)
    exact ⟨x, a1, a2.buf⟩
  · obtain ⟨x, a1, a2⟩ := writes_ok big before (new_absorbed init512 junk hj)
    exact ⟨x, a1, a2.buf⟩

/-- C36 is false: a SHA-512/256 hasher that was reset computes another digest, here of the empty
message. -/
theorem C36_false : (finalize256 false (reset (new 32 (List.replicate 128 0))) >>= fun a =>
    finalize256 false (new 32 (List.replicate 128 0)) >>= fun b => pure (decide (a = b))) = .ok false := by decide +kernel

set_option maxRecDepth 10000 in
/-- Test vectors of FIPS 180-4: the specification is the standard function ("abc"). -/
example : Spec.Sha.sha512_256 [0x61, 0x62, 0x63] =
    [0x53, 0x04, 0x8e, 0x26, 0x81, 0x94, 0x1e, 0xf9, 0x9b, 0x2e, 0x29, 0xb7, 0x6b, 0x4c, 0x7d, 0xab,
     0xe4, 0xc2, 0xd0, 0xc6, 0x34, 0xfc, 0x6d, 0x46, 0xe0, 0xe2, 0xf1, 0x31, 0x07, 0xe7, 0xaf, 0x23] := by decide +kernel

/-- A non-trivial case: 200 bytes in chunks of 70, 60 and 70 satisfy the hypotheses of C34. -/
example : (List.replicate 128 0#8).length = 128 ∧
    [List.replicate 70 1#8, List.replicate 60 2#8, List.replicate 70 3#8].flatten.length < 2 ^ 61 := by
  refine ⟨List.length_replicate, ?_⟩
  rw [List.flatten_cons, List.flatten_cons, List.flatten_cons, List.flatten_nil, List.length_append, List.length_append,
    List.length_append, List.length_replicate, List.length_replicate, List.length_replicate, List.length_nil]
  norm_num

end Utreexo
