import Verif.Proof.Alloc
import Verif.Props.Batch
import Verif.Props.Work

/-!
# C74: the memory an input can claim

`unserializeA` and `unserializeUndoA` are the decoders with the bytes that they request from their vectors before they read the
entries, `Pol.verifyA` is `Verify` with the number of objects it creates (`Verif/Model/Alloc.lean`).
-/

set_option linter.unusedSectionVars false

namespace Utreexo
open Spec

/-! ## Decoding -/

section Decode
open Batch Codec

/-- C74: noting the requests changes nothing. -/
theorem C74_decode_same (big : Bool) (old : BatchProof Hash32) (oldU : UndoBatch Hash32) (bytes : List Byte) :
    (unserializeA big old bytes).out = unserialize big old bytes ∧ (unserializeUndoA big oldU bytes).out = unserializeUndo big oldU bytes := by
  constructor
  · unfold unserializeA unserialize
    simp only [apply_ite Claim.out, Claim.snd_bind]
    rfl
  · unfold unserializeUndoA unserializeUndo
    simp only [apply_ite Claim.out, Claim.snd_bind]
    rfl

theorem read_word (big : Bool) (l : List Byte) (h : l.length = 4) : (readBE32 big l).toNat = beValue l := by
  rw [readBE32_eq big _ h, BitVec.toNat_ofNat, Nat.mod_eq_of_lt]
  have := beValue_lt l; rw [h] at this; exact this

/-- The requests of the decoder of proofs are decided by the length of the input and the two counts in it. -/
theorem proof_claims (big : Bool) (old : BatchProof Hash32) (bytes : List Byte) : (unserializeA big old bytes).req =
    if 8 ≤ bytes.length ∧ bytes.length = 8 + 4 * beValue (bytes.take 4) + 32 * beValue ((bytes.drop 4).take 4) then
      [beValue (bytes.take 4) * 8, beValue (bytes.take 4) * 8, beValue ((bytes.drop 4).take 4) * 32] else [] := by
  unfold unserializeA
  by_cases h8 : bytes.length < 8
  · rw [if_pos h8, if_neg (by omega)]; rfl
  have la : (bytes.take 4).length = 4 := by simp; omega
  have lb : ((bytes.drop 4).take 4).length = 4 := by simp; omega
  rw [if_neg h8, memRead_ok (by omega), Claim.of_ok, addInt_ok (by omega), Claim.of_ok, memRead_ok (by omega), Claim.of_ok,
    addInt_ok (by omega), Claim.of_ok]
  simp only [List.drop_zero, Nat.zero_add]
  rw [read_word big _ la, read_word big _ lb]
  by_cases hm : bytes.length = 8 + 4 * beValue (bytes.take 4) + 32 * beValue ((bytes.drop 4).take 4)
  · rw [if_neg (by omega), if_pos ⟨by omega, hm⟩, Claim.reserve_bind, Claim.reserve_bind, Claim.reserve_bind]
    simp only
    rw [Claim.fst_bind]
    intro a
    exact Claim.fst_bind fun b => Claim.fst_bind fun _ => rfl
  · rw [if_pos (by omega), if_neg (fun h => hm h.2)]; rfl

/-- The requests of the decoder of undo data are decided by the length of the input and the count in it. -/
theorem undo_claims (big : Bool) (old : UndoBatch Hash32) (bytes : List Byte) : (unserializeUndoA big old bytes).req =
    if 8 ≤ bytes.length ∧ bytes.length = (8 + 36 * beValue ((bytes.drop 4).take 4)) % 2 ^ 32 then
      [beValue ((bytes.drop 4).take 4) * 8, beValue ((bytes.drop 4).take 4) * 32] else [] := by
  unfold unserializeUndoA
  by_cases h8 : bytes.length < 8
  · rw [if_pos h8, if_neg (by omega)]; rfl
  have la : (bytes.take 4).length = 4 := by simp; omega
  have lb : ((bytes.drop 4).take 4).length = 4 := by simp; omega
  rw [if_neg h8, memRead_ok (by omega), Claim.of_ok, addInt_ok (by omega), Claim.of_ok, memRead_ok (by omega), Claim.of_ok,
    addInt_ok (by omega), Claim.of_ok]
  simp only [List.drop_zero, Nat.zero_add]
  rw [read_word big _ la, read_word big _ lb]
  have hs : 4 + 4 + 4 * beValue ((bytes.drop 4).take 4) + 32 * beValue ((bytes.drop 4).take 4) = 8 + 36 * beValue ((bytes.drop 4).take 4) := by
    ring
  rw [hs]
  by_cases hm : bytes.length = (8 + 36 * beValue ((bytes.drop 4).take 4)) % 2 ^ 32
  · rw [if_neg (not_not.2 hm), if_pos ⟨by omega, hm⟩, Claim.reserve_bind, Claim.reserve_bind]
    simp only
    rw [Claim.fst_bind]
    intro a
    exact Claim.fst_bind fun b => Claim.fst_bind fun _ => rfl
  · rw [if_pos hm, if_neg (fun h => hm h.2)]; rfl

/-- C74: whatever the bytes, the decoder of proofs requests at most four times the memory that the input takes. -/
theorem C74_proof (big : Bool) (old : BatchProof Hash32) (bytes : List Byte) :
    (unserializeA big old bytes).req.sum ≤ 4 * bytes.length := by
  rw [proof_claims]
  split
  · simp only [List.sum_cons, List.sum_nil]; omega
  · exact Nat.zero_le _

/-- C74: an input that is rejected requests nothing, and one that is accepted into a fresh object requests exactly what the decoded
proof takes, so that no vector has to grow while the entries are read. -/
theorem C74_proof_exact (big : Bool) (old : BatchProof Hash32) (bytes : List Byte) (q : BatchProof Hash32) :
    (unserialize big old bytes = .ok (false, q) → (unserializeA big old bytes).req = []) ∧
    (unserialize big {} bytes = .ok (true, q) →
      (unserializeA big {} bytes).req = [q.targets.length * 8, q.sorted.length * 8, q.hashes.length * 32]) := by
  rw [proof_claims, proof_claims]
  constructor
  · intro h
    split
    · next hm =>
      by_cases hl : bytes.length < 2 ^ 31
      · obtain ⟨b, q', h1, -, h2⟩ := C12_unserialize_safe big old bytes hl
        rw [h2.2 hm, h] at h1
        simp at h1
      · rw [C12_unserialize_ub big old bytes (by omega) hm.2] at h
        cases h
    · rfl
  · intro h
    have hl := unserialize_short h
    rcases unserialize_spec big {} bytes hl with ⟨h1, h2⟩ | ⟨ts, hs, h1, h2, h3, h4, h5, h6, h7⟩
    · rw [h1] at h; simp at h
    · rw [h1] at h
      simp only [Except.ok.injEq, Prod.mk.injEq, true_and] at h
      subst h
      rw [if_pos ⟨h2, by omega⟩, h3, h4]
      simp only
      rw [length_sortU64, List.nil_append, h3]

/-- C74, every input: the decoder of undo data requests 40 bytes for each declared entry of an input whose length is `8 + 36 c` modulo
`2^32`, where `c` is the declared count, and nothing otherwise. -/
theorem C74_undo_exact (big : Bool) (old : UndoBatch Hash32) (bytes : List Byte) :
    (8 ≤ bytes.length ∧ bytes.length = (8 + 36 * beValue ((bytes.drop 4).take 4)) % 2 ^ 32 →
      (unserializeUndoA big old bytes).req.sum = 40 * beValue ((bytes.drop 4).take 4)) ∧
    (¬ (8 ≤ bytes.length ∧ bytes.length = (8 + 36 * beValue ((bytes.drop 4).take 4)) % 2 ^ 32) →
      (unserializeUndoA big old bytes).req = []) := by
  rw [undo_claims]
  constructor
  · intro h
    rw [if_pos h]
    simp only [List.sum_cons, List.sum_nil]; omega
  · intro h
    rw [if_neg h]

/-- C74 is false for undo data: an input of 8 bytes requests 40 GiB. -/
theorem C74_undo_false : ([0, 0, 0, 0, 0x40, 0, 0, 0] : List Byte).length = 8 ∧
    (unserializeUndoA false ⟨0, [], []⟩ [0, 0, 0, 0, 0x40, 0, 0, 0]).req.sum = 40 * 2 ^ 30 := by
  refine ⟨rfl, ?_⟩
  rw [undo_claims]
  decide +kernel

/-- C74 for undo data, under the condition that the length the count stands for fits into 32 bits: at most twice the memory that the
input takes. The condition is needed for every single input, `C74_undo_wraps`. -/
theorem C74_undo_partial (big : Bool) (old : UndoBatch Hash32) (bytes : List Byte)
    (hc : 8 + 36 * beValue ((bytes.drop 4).take 4) < 2 ^ 32) : (unserializeUndoA big old bytes).req.sum ≤ 2 * bytes.length := by
  rw [undo_claims, Nat.mod_eq_of_lt hc]
  split
  · simp only [List.sum_cons, List.sum_nil]; omega
  · exact Nat.zero_le _

/-- C74, the other inputs: a request is made only if the length matches, and then for more than 4 GiB; the behaviour is undefined
afterwards. -/
theorem C74_undo_wraps (big : Bool) (old : UndoBatch Hash32) (bytes : List Byte)
    (hc : 2 ^ 32 ≤ 8 + 36 * beValue ((bytes.drop 4).take 4)) (hr : (unserializeUndoA big old bytes).req ≠ []) :
    2 ^ 32 < (unserializeUndoA big old bytes).req.sum ∧ unserializeUndo big old bytes = .error .ub := by
  rw [undo_claims] at hr ⊢
  split at hr
  · next h =>
    rw [if_pos h]
    refine ⟨?_, (C15_exact big old bytes).2.2.2 h.1 h.2 (by omega)⟩
    simp only [List.sum_cons, List.sum_nil]; omega
  · exact absurd rfl hr

/-- A proof with one target and no hashes: 12 bytes, of which 16 bytes of entries are made. -/
example : (unserializeA false {} [0, 0, 0, 1, 0, 0, 0, 0, 0, 0, 0, 7]).req = [8, 8, 0] ∧
    (unserializeA false {} [0, 0, 0, 2, 0, 0, 0, 0, 0, 0, 0, 7]).req = [] := by
  rw [proof_claims, proof_claims]
  decide +kernel

end Decode

/-! ## Verifying -/

section Verify
variable {H : Type} [DecidableEq H] [HashOps H]

/-- C74: counting the objects changes nothing. -/
theorem C74_verify_same (p : Pollard H) (proof : BatchProof H) (hs : List H) :
    (Pol.verifyA p proof hs).map Prod.fst = Pol.verify p proof hs := by
  unfold Pol.verifyA Pol.verify
  split
  · rfl
  cases Pol.checkSanity proof p.numLeaves with
  | error e => rfl
  | ok b =>
    simp only [ok_bind]
    split
    · rfl
    split
    · rfl
    cases Pol.createProofTree p proof with
    | error e => rfl
    | ok x =>
      obtain ⟨createOk, c, tree⟩ := x
      simp only [ok_bind]
      have rest : ∀ (made : Made) (y : Bool × Pol.VPT H), (if (!y.1) = true then (do
            let heap ← Pol.recover y.2.arena c.recovery y.2.heap
            pure ((false, { p with roots := c.roots, ext := heap }), made)) else (do
            let m ← Pol.rememberTargets hs proof.sorted p.posmap
            pure ((true, { p with roots := c.roots, ext := y.2.heap, posmap := m }), made)) : Res ((Bool × Pollard H) × Made)).map Prod.fst =
          (if (!y.1) = true then (do
            let heap ← Pol.recover y.2.arena c.recovery y.2.heap
            pure (false, { p with roots := c.roots, ext := heap })) else (do
            let m ← Pol.rememberTargets hs proof.sorted p.posmap
            pure (true, { p with roots := c.roots, ext := y.2.heap, posmap := m }))) := by
        intro made y
        split
        · cases Pol.recover y.2.arena c.recovery y.2.heap <;> rfl
        · cases Pol.rememberTargets hs proof.sorted p.posmap <;> rfl
      cases createOk with
      | false => exact rest _ (false, _)
      | true =>
        simp only [if_true]
        cases Pol.verifyProofTree p.numLeaves { heap := c.heap, arena := c.arena, targets := hs } tree with
        | error e => rfl
        | ok y => exact rest _ y

/-- What is used of `Pol.createProofTree_spends`. -/
theorem verify_made {p p' : Pollard H} (hn : p.numLeaves ≤ 2 ^ 62) {proof : BatchProof H} {hs : List H} {b : Bool} {m : Made}
    (hv : Pol.verifyA p proof hs = .ok ((b, p'), m)) : m = {} ∨ (Pol.Sane p.numLeaves proof.sorted ∧ hs.length = proof.targets.length ∧
      m.internal ≤ 2 * Pol.computed p.numLeaves proof.sorted 1 66 ∧ m.nodes ≤ 2 * Pol.computed p.numLeaves proof.sorted 1 66) := by
  revert hv
  suffices h : After (Pol.verifyA p proof hs) fun r => r.2 = {} ∨ (Pol.Sane p.numLeaves proof.sorted ∧ hs.length = proof.targets.length ∧
      r.2.internal ≤ 2 * Pol.computed p.numLeaves proof.sorted 1 66 ∧ r.2.nodes ≤ 2 * Pol.computed p.numLeaves proof.sorted 1 66) from
    fun hv => h _ hv
  unfold Pol.verifyA
  split
  · exact .ok (.inl rfl)
  next hl =>
  obtain ⟨b, e, hb⟩ := Pol.checkSanity_ok (H := H) hn proof
  rw [e, ok_bind]
  split
  · exact .pure (.inl rfl)
  next hbt =>
  have hS := (hb.1 (by simpa using hbt)).1
  split
  · exact .pure (.inl rfl)
  refine .bind (Pol.createProofTree_spends hS) fun x hx => ?_
  obtain ⟨createOk, c, tree⟩ := x
  have key : c.heap.length - p.ext.length ≤ 2 * Pol.computed p.numLeaves proof.sorted 1 66 := by
    have := hx.1
    simp only at this
    omega
  have hl' : hs.length = proof.targets.length := by simpa using hl
  dsimp only
  split
  · exact .seq fun y => .ite (.seq fun _ => .pure (.inr ⟨hS, hl', key, hx.2⟩)) (.seq fun _ => .pure (.inr ⟨hS, hl', key, hx.2⟩))
  · exact .seq fun y => .ite (.seq fun _ => .pure (.inr ⟨hS, hl', key, hx.2⟩)) (.seq fun _ => .pure (.inr ⟨hS, hl', key, hx.2⟩))

/-- C74: whatever the proof says and whatever the outcome, `Verify` creates at most two nodes of the pollard and two helper objects for
each inner node that lies above a target. No assumption is made on the history of the pollard. -/
theorem C74_verify (p p' : Pollard H) (hn : p.numLeaves ≤ 2 ^ 62) (proof : BatchProof H) (hs : List H) (b : Bool) (m : Made)
    (hv : Pol.verifyA p proof hs = .ok ((b, p'), m)) :
    ∃ nodes : List (ℕ × ℕ), nodes.Nodup ∧ (∀ r k, (r, k) ∈ nodes → 1 ≤ r ∧ Above p.numLeaves proof.sorted r k) ∧
      m.internal ≤ 2 * nodes.length ∧ m.nodes ≤ 2 * nodes.length := by
  rcases verify_made hn hv with rfl | ⟨hS, -, h1, h2⟩
  · exact ⟨[], List.nodup_nil, by simp, by simp, by simp⟩
  · obtain ⟨l, k1, k2, k3⟩ := Pol.computed_above hS
    exact ⟨l, k1, fun r k hk => (k3 r k).1 hk, by rw [k2]; exact h1, by rw [k2]; exact h2⟩

/-- C74: no more than twice the number of targets times the height of the tallest tree, and fewer than twice the number of leaves. -/
theorem C74_verify_bound (p p' : Pollard H) (hn : p.numLeaves ≤ 2 ^ 62) (proof : BatchProof H) (hs : List H) (b : Bool) (m : Made)
    (hv : Pol.verifyA p proof hs = .ok ((b, p'), m)) (k : ℕ) (hk : k = m.internal ∨ k = m.nodes) :
    k ≤ 2 * (proof.sorted.length * Nat.log2 p.numLeaves) ∧ (k ≠ 0 → k < 2 * p.numLeaves) := by
  rcases verify_made hn hv with rfl | ⟨hS, -, h1, h2⟩
  · have : k = 0 := by rcases hk with h | h <;> exact h
    subst this
    exact ⟨Nat.zero_le _, fun h => absurd rfl h⟩
  have hk' : k ≤ 2 * Pol.computed p.numLeaves proof.sorted 1 66 := by
    rcases hk with rfl | rfl
    · exact h1
    · exact h2
  have h3 := Pol.computed_targets hS
  have h4 := Pol.computed_leaves hS
  exact ⟨by omega, by omega⟩

/-- C74: nothing is created unless there is a hash for each target and the targets are leaves of the forest in order. -/
theorem C74_verify_early (p p' : Pollard H) (hn : p.numLeaves ≤ 2 ^ 62) (proof : BatchProof H) (hs : List H) (b : Bool) (m : Made)
    (hv : Pol.verifyA p proof hs = .ok ((b, p'), m))
    (hbad : hs.length ≠ proof.targets.length ∨ ¬ proof.sorted.Pairwise (· < ·) ∨ ∃ t ∈ proof.sorted, p.numLeaves ≤ t) : m = {} := by
  rcases verify_made hn hv with h | ⟨hS, h2, -⟩
  · exact h
  exfalso
  rcases hbad with hb | hb | ⟨t, ht, hb⟩
  · exact hb h2
  · exact hb hS.sorted
  · have := hS.lt t ht
    omega

end Verify

section Message
variable [HashOps Hash32]

/-- C74: what a message of `B` bytes with a proof can make a node create: at most `B / 2` objects of each kind for each row of the
tallest tree. -/
theorem C74_message (big : Bool) (bytes : List Byte) (q : BatchProof Hash32) (p p' : Pollard Hash32) (hn : p.numLeaves ≤ 2 ^ 62)
    (hs : List Hash32) (b : Bool) (m : Made) (hq : Batch.unserialize big {} bytes = .ok (true, q))
    (hv : Pol.verifyA p q hs = .ok ((b, p'), m)) :
    m.internal ≤ bytes.length / 2 * Nat.log2 p.numLeaves ∧ m.nodes ≤ bytes.length / 2 * Nat.log2 p.numLeaves := by
  have hl := unserialize_short hq
  have key : 2 * q.sorted.length ≤ bytes.length / 2 := by
    rcases unserialize_spec big {} bytes hl with ⟨h1, h2⟩ | ⟨ts, hs, h1, h2, h3, h4, h5, h6, h7⟩
    · rw [h1] at hq; simp at hq
    · rw [h1] at hq
      simp only [Except.ok.injEq, Prod.mk.injEq, true_and] at hq
      subst hq
      simp only
      rw [length_sortU64, List.nil_append]
      omega
  have h1 := (C74_verify_bound p p' hn q hs b m hv _ (.inl rfl)).1
  have h2 := (C74_verify_bound p p' hn q hs b m hv _ (.inr rfl)).1
  have h3 := Nat.mul_le_mul_right (Nat.log2 p.numLeaves) key
  rw [Nat.mul_assoc] at h3
  exact ⟨h1.trans h3, h2.trans h3⟩

end Message

section Examples
attribute [local instance] toyOps

/-- A pollard restored from the roots of a forest with 17 leaves: the outcome and the objects created for a proof, and for the same
proof again. -/
def toyMade (hashes : List ℕ) (wrong : List ℕ → List ℕ) : Res (List (Bool × Made)) := do
  let (_, _, F) ← Ram.modify (Ram.mk 0) (workLeaves 0 17) []
  let rs ← Ram.roots F
  let p ← Pol.fromRoots rs 17
  let proof ← Acc.prove Ram.vt F hashes
  match proof with
  | none => return []
  | some proof =>
    let ((a, p), c) ← Pol.verifyA p { proof with hashes := wrong proof.hashes } hashes
    let ((b, _), d) ← Pol.verifyA p { proof with hashes := wrong proof.hashes } hashes
    return [(a, c), (b, d)]

/-- One leaf with four nodes above it: eight nodes are created, none the second time. Nothing is created for the leaf that is a root,
and nothing for a proof with too many hashes. -/
example : [toyMade [1] id, toyMade [1, 9] id, toyMade [17] id, toyMade [1] (fun l => l ++ l)] = [.ok [(true, ⟨8, 8⟩), (true, ⟨0, 8⟩)],
    .ok [(true, ⟨14, 14⟩), (true, ⟨0, 14⟩)], .ok [(true, {}), (true, {})], .ok [(false, {}), (false, {})]] := by decide +kernel

/-- A wrong proof is paid for each time. -/
example : toyMade [1] (fun l => l.map (· + 1)) = .ok [(false, ⟨8, 8⟩), (false, ⟨8, 8⟩)] := by decide +kernel

end Examples

end Utreexo
