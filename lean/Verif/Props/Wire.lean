import Verif.Props.Bind
import Verif.Props.Exact
import Verif.Props.Batch
import Verif.Props.File
import Mathlib.Data.Finset.Prod
import Mathlib.Data.Finset.Card

/-!
# Proofs and undo batches sent as bytes

C45 (a bridge node and a light client that talk bytes), C46 (undo batches kept as bytes).
-/

set_option linter.unusedSectionVars false

namespace Utreexo
open Spec Equiv

/-! ## How many hashes a proof has -/

section Count

/-- The sibling. -/
def sibling (k : ℕ) : ℕ := if k % 2 = 0 then k + 1 else k - 1

/-- A proof of `k` targets among at most `2^R` leaves has at most `R` hashes per target. -/
theorem proof_size {n R : ℕ} (hR : n ≤ 2 ^ R) (T : List ℕ) (nodes : List (ℕ × ℕ)) (hnd : nodes.Nodup)
    (h : ∀ r k, (r, k) ∈ nodes → ProofNode n T r k) : nodes.length ≤ R * T.length := by
  classical
  have hsub : nodes.toFinset ⊆ (Finset.range R ×ˢ T.toFinset).image fun a => (a.1, sibling (a.2 / 2 ^ a.1)) := by
    rintro ⟨r, k⟩ hm
    obtain ⟨j, b, hb, rfl, hj, ⟨a, ha, he⟩, -⟩ := h r k (List.mem_toFinset.1 hm)
    refine Finset.mem_image.2 ⟨(r, a), Finset.mem_product.2 ⟨Finset.mem_range.2 ?_, List.mem_toFinset.2 ha⟩, ?_⟩
    · by_contra hc
      unfold InForest at hj
      have h1 : 2 ^ R < 2 ^ (r + 1) := Nat.pow_lt_pow_right (by omega) (by omega)
      have h2 : 1 * 2 ^ (r + 1) ≤ (j + 1) * 2 ^ (r + 1) := Nat.mul_le_mul_right _ (by omega)
      omega
    · simp only [he, sibling, Prod.mk.injEq, true_and]
      split_ifs <;> omega
  calc nodes.length = nodes.toFinset.card := (List.toFinset_card_of_nodup hnd).symm
    _ ≤ _ := Finset.card_le_card hsub
    _ ≤ _ := Finset.card_image_le
    _ = R * T.toFinset.card := by rw [Finset.card_product, Finset.card_range]
    _ ≤ R * T.length := Nat.mul_le_mul_left _ (List.toFinset_card_le T)

end Count

section Generic
variable [HashOps Hash32]

namespace Pol

/-- The proof a forest makes, in terms of the constructor, and its size. -/
theorem proof_shape {F : RamForest Hash32} {st : List (UndoBatch Hash32 × RamForest Hash32)} (h : Ram.Run F st) {L : List Hash32}
    (hL : Ram.Represents F L) {hashes : List Hash32} {proof : BatchProof Hash32} (hp : Acc.prove Ram.vt F hashes = .ok (some proof)) :
    proof = BatchProof.mk' proof.targets proof.hashes ∧ proof.targets.length = hashes.length ∧ (∀ t ∈ proof.targets, t < L.length) ∧
      ∀ R, L.length ≤ 2 ^ R → proof.hashes.length ≤ R * hashes.length := by
  obtain ⟨r, e1, -, e3⟩ := C22_prove F st h L hL hashes
  rw [e1] at hp
  obtain rfl := Except.ok.inj hp
  obtain ⟨g1, g2, g3, nodes, g4, g5, g6⟩ := e3 proof rfl
  have hlen : proof.targets.length = hashes.length := by simpa using congrArg List.length g1
  refine ⟨?_, hlen, ?_, ?_⟩
  · obtain ⟨ts, so, hs⟩ := proof
    simp only [BatchProof.mk', BatchProof.mk.injEq, true_and, and_true]
    have h1 : ts.Nodup := g3.nodup_iff.1 (g2.imp (fun h => by omega))
    have h2 := sortU64_sorted h1
    exact List.Perm.eq_of_pairwise (fun a b _ _ x y => by omega) g2 h2 (g3.trans (Ram.sortU64_perm ts).symm)
  · intro t ht
    by_contra hc
    have : L[t]? ∈ proof.targets.map fun t => L[t]? := List.mem_map_of_mem ht
    rw [g1] at this
    obtain ⟨x, -, hx⟩ := List.mem_map.1 this
    rw [List.getElem?_eq_none (by omega)] at hx
    simp at hx
  · intro R hR
    rw [g6, List.length_map, ← hlen]
    refine proof_size hR proof.targets nodes ?_ (fun r k hm => (g5 r k).1 hm)
    exact (g4.imp (fun h e => by rw [e] at h; omega))

end Pol

open Pol

/-! ## C45: proofs as bytes -/

/-- What a light client does with the bytes of a proof and the hashes it is told. -/
def verifyBytes (big : Bool) (p : Pollard Hash32) (bytes : List Byte) (hs : List Hash32) : Res (Bool × Pollard Hash32) := do
  match ← Batch.unserialize big {} bytes with
  | (false, _) => return (false, p)
  | (true, proof) => verify p proof hs

/-- The round trip of a proof the forest made. -/
theorem wire_trip (b1 b2 : Bool) {F : RamForest Hash32} {st : List (UndoBatch Hash32 × RamForest Hash32)} (h : Ram.Run F st)
    {L : List Hash32} (hL : Ram.Represents F L) {hashes : List Hash32} (hn : hashes ≠ [] → L.length ≤ 2 ^ 32) (hk : hashes.length ≤ 2000000)
    {proof : BatchProof Hash32} (hp : Acc.prove Ram.vt F hashes = .ok (some proof)) (old : List Byte) :
    ∃ bytes, Batch.serialize b1 proof old = .ok bytes ∧ bytes.length ≤ 8 + 1028 * hashes.length ∧
      Batch.unserialize b2 {} bytes = .ok (true, proof) := by
  obtain ⟨h1, h2, h3, h4⟩ := proof_shape h hL hp
  have h5 : proof.hashes.length ≤ 32 * hashes.length := by
    by_cases he : hashes = []
    · have := h4 L.length Nat.lt_two_pow_self.le
      rw [he] at this ⊢; simpa using this
    · exact h4 32 (hn he)
  have hsz : 8 + 4 * proof.targets.length + 32 * proof.hashes.length < 2 ^ 31 := by rw [h2]; omega
  have h32 : ∀ t ∈ proof.targets, t < 2 ^ 32 := by
    intro t ht
    refine lt_of_lt_of_le (h3 t ht) (hn ?_)
    rintro rfl
    rw [List.eq_nil_of_length_eq_zero h2] at ht; simp at ht
  obtain ⟨bytes, e1, e2⟩ := C10_roundtrip b1 b2 proof.targets proof.hashes old hsz h32
  rw [← h1] at e1 e2
  obtain ⟨bytes', f1, f2⟩ := C10_serialize_format b1 proof old hsz h32
  rw [e1] at f1
  obtain rfl := Except.ok.inj f1
  exact ⟨bytes, e1, by rw [f2.length, h2]; omega, e2⟩

/-- C45, completeness: the forest can prove any set of its leaves, the proof has at most 1028 bytes per leaf (and 8 more), and
every pollard that follows the forest, on a host of any byte order, accepts the bytes. The bounds are due to 32-bit targets
and offsets. -/
theorem C45_complete (b1 b2 : Bool) (F : RamForest Hash32) (st : List (UndoBatch Hash32 × RamForest Hash32)) (p : Pollard Hash32)
    (h : Sync F st p) (L : List Hash32) (hL : Ram.Represents F L) (hn : L.length ≤ 2 ^ 32) (D : List ℕ) (hD : D.Pairwise (· < ·))
    (hs : List Hash32) (hhs : hs.map some = D.map fun t => L[t]?) (hk : hs.length ≤ 2000000) (old : List Byte) :
    ∃ proof bytes p', Acc.prove Ram.vt F hs = .ok (some proof) ∧ Batch.serialize b1 proof old = .ok bytes ∧
      bytes.length ≤ 8 + 1028 * hs.length ∧ verifyBytes b2 p bytes hs = .ok (true, p') ∧ Sync F st p' := by
  obtain ⟨L0, A, hI⟩ := h.inv
  obtain ⟨proof, p', e1, -, e3, e4⟩ := C24_positions F st p h L hL D hD hs hhs
  obtain ⟨bytes, f1, f2, f3⟩ := wire_trip b1 b2 hI.run hL (fun _ => hn) hk e1 old
  refine ⟨proof, bytes, p', e1, f1, f2, ?_, e4⟩
  unfold verifyBytes
  rw [f3, ok_bind]
  exact e3

theorem unserialize_encoding {big : Bool} {bytes : List Byte} {proof : BatchProof Hash32}
    (h : Batch.unserialize big {} bytes = .ok (true, proof)) :
    IsProofEncoding bytes proof.targets proof.hashes ∧ proof = BatchProof.mk' proof.targets proof.hashes ∧
      (∀ t ∈ proof.targets, t < 2 ^ 32) ∧ 8 + 4 * proof.targets.length + 32 * proof.hashes.length < 2 ^ 31 := by
  have hlen := unserialize_short h
  rcases unserialize_spec big {} bytes hlen with ⟨h1, -⟩ | ⟨ts, hs, h1, h2, h3, h4, h5, h6, h7⟩
  · rw [h1] at h; simp at h
  · rw [h1] at h
    obtain rfl := (Prod.mk.inj (Except.ok.inj h)).2
    have hsz : 8 + 4 * ts.length + 32 * hs.length < 2 ^ 31 := by omega
    refine ⟨?_, rfl, h6, hsz⟩
    obtain ⟨bs, e1, e2⟩ := C10_serialize_format big (BatchProof.mk' ts hs) [] hsz h6
    have h8 := C11_canonical big big {} _ bytes [] h1
    have : Batch.serialize big (BatchProof.mk' ts hs) [] = .ok bytes := h8
    rw [this] at e1
    obtain rfl := Except.ok.inj e1
    exact e2

/-- The encoding is unique. -/
theorem _root_.Utreexo.IsProofEncoding.inj {bytes : List Byte} {ts ts' : List ℕ} {hs hs' : List Hash32} (h : IsProofEncoding bytes ts hs)
    (h' : IsProofEncoding bytes ts' hs') : ts = ts' ∧ hs = hs' := by
  have l1 : ts.length = ts'.length := by rw [← h.count0, ← h'.count0]
  have l2 : hs.length = hs'.length := by rw [← h.count1, ← h'.count1]
  constructor
  · apply List.ext_getElem l1
    intro i h1 h2
    rw [← h.target i _ (List.getElem?_eq_getElem h1), ← h'.target i _ (List.getElem?_eq_getElem h2)]
  · apply List.ext_getElem l2
    intro i h1 h2
    apply Subtype.ext
    rw [← h.hash i _ (List.getElem?_eq_getElem h1), ← h'.hash i _ (List.getElem?_eq_getElem h2), l1]

theorem verifyBytes_true {big : Bool} {p p' : Pollard Hash32} {bytes : List Byte} {hs : List Hash32}
    (hv : verifyBytes big p bytes hs = .ok (true, p')) : ∃ proof, Batch.unserialize big {} bytes = .ok (true, proof) ∧
      verify p proof hs = .ok (true, p') := by
  unfold verifyBytes at hv
  cases e : Batch.unserialize big {} bytes with
  | error f => rw [e] at hv; simp [bind, Except.bind] at hv
  | ok r =>
    obtain ⟨b, proof⟩ := r
    rw [e, ok_bind] at hv
    cases b with
    | false => simp [pure_ok] at hv
    | true => exact ⟨proof, rfl, hv⟩

/-- C45, soundness: accepted bytes are an encoding of targets and hashes, and unless there are no targets or a collision of the
parent hash is in plain view the targets are different leaves of the forest with the given hashes. -/
theorem C45_sound (big : Bool) (F : RamForest Hash32) (st : List (UndoBatch Hash32 × RamForest Hash32)) (p : Pollard Hash32)
    (h : Sync F st p) (L : List Hash32) (hL : Ram.Represents F L) (bytes : List Byte) (hs : List Hash32) (p' : Pollard Hash32)
    (hv : verifyBytes big p bytes hs = .ok (true, p')) :
    ∃ ts hashes, IsProofEncoding bytes ts hashes ∧ hs.length = ts.length ∧
      (ts = [] ∨ Collision p' L ∨ ∃ D : List ℕ, D.Perm ts ∧ D.Pairwise (· < ·) ∧ hs.map some = D.map fun t => L[t]?) := by
  obtain ⟨proof, e1, e2⟩ := verifyBytes_true hv
  obtain ⟨f1, f2, -⟩ := unserialize_encoding e1
  obtain ⟨g1, g2⟩ := C25_sound F st p h L hL proof hs p' e2
  refine ⟨_, _, f1, g1, ?_⟩
  rcases g2 with g2 | ⟨g2, g3⟩ | g2
  · exact .inl g2
  · refine .inr (.inr ⟨_, ?_, g2, g3⟩)
    rw [f2]
    exact Ram.sortU64_perm _
  · exact .inr (.inl g2)

/-- C45: whatever bytes (below `2^31`) and hashes arrive, the answer is defined, and leaf count and roots stay. -/
theorem C45_answers (big : Bool) (F : RamForest Hash32) (st : List (UndoBatch Hash32 × RamForest Hash32)) (p : Pollard Hash32)
    (h : Sync F st p) (h0 : ∀ pos, read p pos ≠ .ok (some HashOps.zero)) (bytes : List Byte) (hlen : bytes.length < 2 ^ 31) (hs : List Hash32) :
    ∃ b p', verifyBytes big p bytes hs = .ok (b, p') ∧ p'.numLeaves = p.numLeaves ∧ Pol.roots p' = Pol.roots p := by
  obtain ⟨b, proof, e1, -⟩ := C12_unserialize_safe big {} bytes hlen
  unfold verifyBytes
  rw [e1, ok_bind]
  cases b with
  | false => exact ⟨false, p, rfl, rfl, rfl⟩
  | true =>
    obtain ⟨b, p', e2⟩ := C26_answers F st p h h0 proof hs
    exact ⟨b, p', e2, C26_roots F st p h proof hs b p' e2⟩

/-- C45: bytes of the wrong length change nothing. -/
theorem C45_malformed (big : Bool) (p : Pollard Hash32) (bytes : List Byte) (hlen : bytes.length < 2 ^ 31) (hs : List Hash32)
    (h : ¬ (8 ≤ bytes.length ∧ bytes.length = 8 + 4 * beValue (bytes.take 4) + 32 * beValue ((bytes.drop 4).take 4))) :
    verifyBytes big p bytes hs = .ok (false, p) := by
  obtain ⟨b, proof, e1, -, e3⟩ := C12_unserialize_safe big {} bytes hlen
  unfold verifyBytes
  rw [e1, ok_bind]
  cases b with
  | false => rfl
  | true => exact absurd (e3.1 rfl) h

/-- C45: a pollard without cached nodes accepts only one byte string for given targets in a given order, unless the parent hash
collides. -/
theorem C45_unique (b1 b2 : Bool) (F : RamForest Hash32) (st : List (UndoBatch Hash32 × RamForest Hash32)) (p q : Pollard Hash32)
    (h : Sync F st p) (hq : pruneAll p = .ok q) (L : List Hash32) (hL : Ram.Represents F L) (x y : List Byte) (hs hs' : List Hash32)
    (p1 p2 : Pollard Hash32) (hx : verifyBytes b1 q x hs = .ok (true, p1)) (hy : verifyBytes b2 q y hs' = .ok (true, p2))
    (c1 : ¬ Collision p1 L) (c2 : ¬ Collision p2 L) (ts : List ℕ) (h1 h2 : List Hash32) (ht : ts ≠ []) (e1 : IsProofEncoding x ts h1)
    (e2 : IsProofEncoding y ts h2) : x = y ∧ hs = hs' := by
  obtain ⟨pf, a1, a2⟩ := verifyBytes_true hx
  obtain ⟨pg, b1', b2'⟩ := verifyBytes_true hy
  obtain ⟨a3, a4, -⟩ := unserialize_encoding a1
  obtain ⟨b3, b4, -⟩ := unserialize_encoding b1'
  obtain ⟨rfl, rfl⟩ := e1.inj a3
  obtain ⟨ts', rfl⟩ := e2.inj b3
  have hso : pf.sorted = pg.sorted := by rw [a4, b4, ts']; rfl
  have hq' := h.prune hq
  obtain ⟨L0, A, hI⟩ := h.inv
  obtain rfl := hL.unique hI.rep
  rcases (C25_sound F st q hq' L hL pf hs p1 a2).2 with g | ⟨g1, g2⟩ | g
  · exact absurd g ht
  · rcases (C25_sound F st q hq' L hL pg hs' p2 b2').2 with k | ⟨k1, k2⟩ | k
    · exact absurd (ts'.trans k) ht
    · have hlt : ∀ t ∈ pf.sorted, t < L.length := by
        intro t ht
        by_contra hc
        have : L[t]? ∈ hs.map some := by rw [g2]; exact List.mem_map_of_mem ht
        obtain ⟨x, -, hx⟩ := List.mem_map.1 this
        rw [List.getElem?_eq_none (by omega)] at hx
        simp at hx
      obtain ⟨nodes, hN⟩ := proofNodes_exist hI.len g1 hlt
      have u1 := C40_pruned F st p q h hq L hL pf hs ht nodes hN p1 a2 c1
      have u2 := C40_pruned F st p q h hq L hL pg hs' (by rw [← ts']; exact ht) nodes (by rw [← hso]; exact hN) p2 b2' c2
      constructor
      · have w1 := C11_canonical b1 true {} pf x [] a1
        have w2 := C11_canonical b2 true {} pg y [] b1'
        have : Batch.serialize true pf [] = Batch.serialize true pg [] := by unfold Batch.serialize; rw [ts', u1, u2]
        rw [w1, w2] at this
        exact Except.ok.inj this
      · refine List.map_injective_iff.2 (Option.some_injective _) ?_
        rw [g2, k2, hso]
    · exact absurd k c2
  · exact absurd g c1

/-- C45: on the other hand the order of the targets on the wire does not matter: the bytes with the targets in any other order are
accepted as well, with the same effect. (The hashes of the targets are given in the order of the positions in any case.) -/
theorem C45_order (b1 b2 : Bool) (p p' : Pollard Hash32) (x : List Byte) (hs : List Hash32) (hx : verifyBytes b1 p x hs = .ok (true, p'))
    (ts ts' : List ℕ) (hashes : List Hash32) (e : IsProofEncoding x ts hashes) (hp : ts'.Perm ts) :
    ∃ y, IsProofEncoding y ts' hashes ∧ verifyBytes b2 p y hs = .ok (true, p') := by
  obtain ⟨pf, a1, a2⟩ := verifyBytes_true hx
  obtain ⟨a3, a4, a5, a6⟩ := unserialize_encoding a1
  obtain ⟨rfl, rfl⟩ := e.inj a3
  have hsz : 8 + 4 * ts'.length + 32 * pf.hashes.length < 2 ^ 31 := by rw [hp.length_eq]; exact a6
  have h32 : ∀ t ∈ ts', t < 2 ^ 32 := fun t ht => a5 t (hp.mem_iff.1 ht)
  obtain ⟨y, f1, f2⟩ := C10_roundtrip b1 b2 ts' pf.hashes [] hsz h32
  obtain ⟨y', g1, g2⟩ := C10_serialize_format b1 (BatchProof.mk' ts' pf.hashes) [] hsz h32
  rw [f1] at g1
  obtain rfl := Except.ok.inj g1
  refine ⟨y, g2, ?_⟩
  unfold verifyBytes
  rw [f2, ok_bind]
  simp only
  -- the targets are different
  have hsane : pf.sorted.Pairwise (· < ·) := by
    by_contra hc
    obtain ⟨b, c1, c2⟩ := C07_checkTargetsSanity p.numLeaves pf.sorted
    have : b = false := by
      cases b with
      | false => rfl
      | true => exact absurd (c2.1 rfl).1 hc
    subst this
    have hcs : checkSanity pf p.numLeaves = .ok false := by
      unfold checkSanity
      rw [c1, ok_bind]; rfl
    unfold verify at a2
    rw [hcs] at a2
    split_ifs at a2 <;> simp [bind, Except.bind, pure, Except.pure] at a2
  rw [a4] at hsane
  have hnd : pf.targets.Nodup := (Ram.sortU64_perm pf.targets).nodup_iff.1 (hsane.imp (fun h => by omega))
  have hso : St.sortU64 ts' = pf.sorted := by
    rw [a4]
    exact List.Perm.eq_of_pairwise (fun a b _ _ x y => by omega) (sortU64_sorted (hp.nodup_iff.2 hnd)) hsane
      (((Ram.sortU64_perm ts').trans hp).trans (Ram.sortU64_perm pf.targets).symm)
  rw [← a2]
  unfold verify checkSanity createProofTree BatchProof.mk'
  simp only [hso, hp.length_eq]

/-- The blocks of `play` with the proofs sent as bytes from a host of byte order `b1` to one of byte order `b2`. -/
def playBlockWire (b1 b2 : Bool) (F : RamForest Hash32) (p : Pollard Hash32) (b : Block Hash32) : Res (RamForest Hash32 × Pollard Hash32) := do
  match ← Acc.prove Ram.vt F b.dels with
  | none => .error .exc
  | some proof =>
    let hs ← proof.sorted.mapM (Ram.getLeaf F)
    let bytes ← Batch.serialize b1 proof []
    match ← Batch.unserialize b2 {} bytes with
    | (false, _) => .error .exc
    | (true, proof') =>
      match ← verify p proof' hs with
      | (false, _) => .error .exc
      | (true, p1) =>
        match ← Ram.modify F (b.adds.map fun a => (a.1, a.2.1)) proof.sorted with
        | (false, _) => .error .exc
        | (true, _, F') =>
          match ← modify p1 (b.adds.map fun a => (a.1, a.2.2)) proof'.sorted with
          | (false, _) => .error .exc
          | (true, p2) => return (F', p2)

def playWire (b1 b2 : Bool) : List (Block Hash32) → RamForest Hash32 → Pollard Hash32 → Res (RamForest Hash32 × Pollard Hash32)
  | [], F, p => .ok (F, p)
  | b :: bs, F, p => do
    let (F, p) ← playBlockWire b1 b2 F p b
    playWire b1 b2 bs F p

theorem playBlockWire_eq (b1 b2 : Bool) {F : RamForest Hash32} {st : List (UndoBatch Hash32 × RamForest Hash32)} (h : Ram.Run F st)
    {L : List Hash32} (hL : Ram.Represents F L) (p : Pollard Hash32) (b : Block Hash32) (hn : b.dels ≠ [] → L.length ≤ 2 ^ 32)
    (hk : b.dels.length ≤ 2000000) : playBlockWire b1 b2 F p b = playBlock F p b := by
  unfold playBlockWire playBlock
  obtain ⟨r, e1, -⟩ := C22_prove F st h L hL b.dels
  rw [e1, ok_bind, ok_bind]
  cases r with
  | none => rfl
  | some proof =>
    obtain ⟨bytes, f1, -, f3⟩ := wire_trip b1 b2 h hL hn hk e1 []
    simp only [f1, ok_bind, f3]
    cases proof.sorted.mapM (Ram.getLeaf F) with
    | error e => rfl
    | ok hs =>
      rw [ok_bind, ok_bind]
      cases verify p proof hs with
      | error e => rfl
      | ok r =>
        obtain ⟨_ | _, p1⟩ := r
        · rfl
        · simp only [ok_bind]
          cases Ram.modify F (b.adds.map fun a => (a.1, a.2.1)) proof.sorted with
          | error e => rfl
          | ok r =>
            obtain ⟨_ | _, u, F'⟩ := r
            · rfl
            · simp only [ok_bind]
              cases modify p1 (b.adds.map fun a => (a.1, a.2.2)) proof.sorted with
              | error e => rfl
              | ok r => obtain ⟨_ | _, p2⟩ := r <;> rfl

/-- C45: over every history of valid blocks, each deleting at most two million leaves, sending the proofs as bytes changes
nothing: all calls succeed and both sides end as without. -/
theorem C45_history (b1 b2 : Bool) (bs : List (Block Hash32)) (hv : ValidBlocks [] bs) (hk : ∀ b ∈ bs, b.dels.length ≤ 2000000) :
    ∃ F p rs, playWire b1 b2 bs (Ram.mk 0) (mk 0) = .ok (F, p) ∧ play bs (Ram.mk 0) (mk 0) = .ok (F, p) ∧
      Ram.roots F = .ok rs ∧ Pol.roots p = .ok rs := by
  have key : ∀ (bs : List (Block Hash32)) (S L : List Hash32) (F : RamForest Hash32) (st : List (UndoBatch Hash32 × RamForest Hash32))
      (p : Pollard Hash32), (∀ b ∈ bs, b.dels.length ≤ 2000000) → Sync F st p → Ram.Represents F L → L.Perm S → ValidBlocks S bs →
      playWire b1 b2 bs F p = play bs F p := by
    intro bs
    induction bs with
    | nil => intro S L F st p _ _ _ _ _; rfl
    | cons b bs ih =>
      rintro S L F st p hk h hL hS ⟨h1, h2, h3, h4, h5, h6, h7⟩
      obtain ⟨F1, u1, p1, L1, e1, e2, e3, e4, -⟩ := play_step h hL hS h1 h2 h3 h4 h5 h6
      obtain ⟨L0, A, hI⟩ := h.inv
      have := ih _ _ _ _ _ (fun b hb => hk b (by simp [hb])) e2 e3 e4 h7
      rw [playWire, play, playBlockWire_eq b1 b2 hI.run hL p b ?_ (hk b (by simp)), e1, ok_bind, ok_bind]
      · exact this
      intro hne
      rw [hS.length_eq]
      exact (h5 hne).le
  obtain ⟨F, p, rs, L, e1, e2, e3, -⟩ := C23_history bs hv
  refine ⟨F, p, rs, ?_, e1, e2, e3⟩
  rw [key bs [] [] _ _ _ hk Sync.empty (Ram.mk_inv.represents (f := leafFn HashOps.zero []) (by omega)) (List.Perm.refl _) hv, e1]

/-! ## C46: undo batches as bytes -/

/-- C46: what an undo batch contains: the number of leaves added, the targets, and the deleted leaves in some order. -/
theorem C46_batch {H : Type} [DecidableEq H] [HashOps H] (s : RamForest H) (st : List (UndoBatch H × RamForest H)) (h : Ram.Run s st) (L : List H)
    (hL : Ram.Represents s L) (leaves : List (Leaf H)) (targets : List ℕ) (hv : Ram.Valid L (leaves.map Prod.fst) targets) :
    ∃ u s', Ram.modify s leaves targets = .ok (true, some u, s') ∧ u.numAdds = leaves.length ∧ u.positions = targets ∧
      (u.hashes.map some).Perm (targets.map fun t => L[t]?) := by
  obtain ⟨n, f, h1, h2, h3⟩ := h.inv
  have e := hL.unique (h1.represents h2)
  subst e
  obtain ⟨s', g, k1, -⟩ := Ram.modify_step h1 h2 h3 hv
  have hb : ∀ t ∈ targets, t < n := fun t ht => by simpa using hv.bound t ht
  refine ⟨_, s', k1, rfl, rfl, ?_⟩
  obtain ⟨f1, f2⟩ := Ram.sg_facts h2 hv.sorted hb
  have hlen : targets.length ≤ n := by
    have := sorted_length_add_le targets 0 n hv.sorted (fun x hx => ⟨Nat.zero_le _, hb x hx⟩) (Nat.zero_le _)
    omega
  set σ := sg n (n - targets.length) targets (St.numRows n) 0 with hσ
  have hp : ((List.range' (n - targets.length) targets.length).map σ.symm).Perm targets := by
    rw [List.perm_ext_iff_of_nodup]
    · intro a
      simp only [List.mem_map, List.mem_range'_1]
      constructor
      · rintro ⟨x, ⟨hx1, hx2⟩, rfl⟩
        exact (f2 x (by omega)).1 hx1
      · intro ha
        have hx : σ a < n := by
          by_contra hc
          have := f1 (σ a) (by omega)
          rw [Equiv.symm_apply_apply] at this
          have := hb a ha
          omega
        refine ⟨σ a, ⟨?_, by omega⟩, by simp⟩
        rw [f2 (σ a) hx, Equiv.symm_apply_apply]; exact ha
    · exact (List.nodup_range' (step := 1) (by omega)).map σ.symm.injective
    · exact hv.sorted.imp (fun h => by omega)
  have := hp.map fun t => some (f t)
  rw [List.map_map] at this
  refine (List.Perm.of_eq ?_).trans (this.trans (List.Perm.of_eq ?_))
  · unfold Ram.undoOf
    simp only [List.map_map]
    rfl
  · apply List.map_congr_left
    intro t ht
    rw [List.getElem?_map, List.getElem?_range (hb t ht)]; rfl

/-- The batches of a history come from valid calls of `Modify` in it. -/
theorem batches {H : Type} [DecidableEq H] [HashOps H] {s : RamForest H} {st : List (UndoBatch H × RamForest H)} (h : Ram.Run s st) :
    ∀ e ∈ st, e.1.hashes.length = e.1.positions.length ∧ ∀ t ∈ e.1.positions, t < 2 ^ 32 := by
  induction h with
  | empty => simp
  | @modify s s' st L leaves targets u h hL hv hm ih =>
    intro e he
    rcases List.mem_cons.1 he with rfl | he
    · obtain ⟨u', s'', e1, -, e3, e4⟩ := C46_batch s st h L hL leaves targets hv
      rw [hm] at e1
      simp only [Except.ok.injEq, Prod.mk.injEq, Option.some.injEq, true_and] at e1
      obtain ⟨rfl, rfl⟩ := e1
      refine ⟨?_, ?_⟩
      · rw [e3]; simpa using e4.length_eq
      · rw [e3]
        intro t ht
        exact lt_trans (hv.bound t ht) (hv.size (by rintro rfl; simp at ht))
    · exact ih e he
  | rejected _ _ _ ih => exact ih
  | undo _ _ ih => exact fun e he => ih e (List.mem_cons_of_mem _ he)
  | foreign _ _ _ _ _ => simp
  | reopen _ _ hp _ ih => exact fun e he => ih e (hp.subset he)

/-- C46: every outstanding undo batch of a history survives being written as bytes and read on a host of any byte order, whatever
the batch object read into held before. The bounds are due to 32-bit counts and offsets. -/
theorem C46_roundtrip (b1 b2 : Bool) (s : RamForest Hash32) (st : List (UndoBatch Hash32 × RamForest Hash32)) (h : Ram.Run s st)
    (u : UndoBatch Hash32) (s0 : RamForest Hash32) (hu : (u, s0) ∈ st) (hk : u.positions.length ≤ 2 ^ 25) (ha : u.numAdds < 2 ^ 32)
    (prev : UndoBatch Hash32) (old : List Byte) :
    ∃ bytes, Batch.serializeUndo b1 u old = .ok bytes ∧ Batch.unserializeUndo b2 prev bytes = .ok (true, u) := by
  obtain ⟨h1, h2⟩ := batches h _ hu
  exact C14_roundtrip b1 b2 u prev old ha h2 h1 (by
    have : (2 : ℕ) ^ 25 = 33554432 := by norm_num
    have : (2 : ℕ) ^ 31 = 2147483648 := by norm_num
    omega)

/-- Undoing all outstanding batches, each written as bytes and read again, succeeds and goes back through the forests they came
from. -/
inductive UnwindsBytes (b1 b2 : Bool) (prev : UndoBatch Hash32) : RamForest Hash32 → List (UndoBatch Hash32 × RamForest Hash32) → Prop
  | done {s : RamForest Hash32} : UnwindsBytes b1 b2 prev s []
  | step {s s' s0 : RamForest Hash32} {st : List (UndoBatch Hash32 × RamForest Hash32)} {u u' : UndoBatch Hash32} {bytes : List Byte} :
      Batch.serializeUndo b1 u [] = .ok bytes → Batch.unserializeUndo b2 prev bytes = .ok (true, u') → Ram.undo s u' = .ok (true, s') →
      Ram.Same s' s0 → UnwindsBytes b1 b2 prev s' st → UnwindsBytes b1 b2 prev s ((u, s0) :: st)

/-- C46: a stack of undo batches kept as bytes leads back through the whole history. -/
theorem C46_unwind (b1 b2 : Bool) (prev : UndoBatch Hash32) (s : RamForest Hash32) (st : List (UndoBatch Hash32 × RamForest Hash32))
    (h : Ram.Run s st) (hk : ∀ e ∈ st, e.1.positions.length ≤ 2 ^ 25 ∧ e.1.numAdds < 2 ^ 32) : UnwindsBytes b1 b2 prev s st := by
  have key : ∀ (s : RamForest Hash32) (st : List (UndoBatch Hash32 × RamForest Hash32)), Unwinds s st →
      (∀ e ∈ st, ∃ bytes, Batch.serializeUndo b1 e.1 [] = .ok bytes ∧ Batch.unserializeUndo b2 prev bytes = .ok (true, e.1)) →
      UnwindsBytes b1 b2 prev s st := by
    intro s st hu hr
    induction hu with
    | done => exact .done
    | @step s s' s0 u st e1 e2 _ ih =>
      obtain ⟨bytes, f1, f2⟩ := hr (u, s0) List.mem_cons_self
      exact .step f1 f2 e1 e2 (ih (fun e he => hr e (List.mem_cons_of_mem _ he)))
  refine key s st (C21_unwind s st h) ?_
  intro e he
  exact C46_roundtrip b1 b2 s st h e.1 e.2 he (hk e he).1 (hk e he).2 prev []

end Generic

/-! ## Everything together, with SHA-512/256 -/

section Sha
open Pol
attribute [local instance] shaOps

/-- C45 with the hash function of the library: after every history of valid blocks with the proofs sent as bytes, the bridge node can
make the light client accept every set of unspent leaves, and when it accepts another hash the search through the pollard returns a
collision of SHA-512/256. -/
theorem C45_sha (b1 b2 : Bool) (bs : List (Block Hash32)) (hv : ValidBlocks [] bs) (hk : ∀ b ∈ bs, b.dels.length ≤ 2000000) :
    ∃ F p L, playWire b1 b2 bs (Ram.mk 0) (mk 0) = .ok (F, p) ∧ Ram.Represents F L ∧ L.Perm (bs.foldl after []) ∧
      (∀ hs : List Hash32, hs.Nodup → (∀ x ∈ hs, x ∈ bs.foldl after []) → hs.length ≤ 2000000 → (bs.foldl after []).length ≤ 2 ^ 32 →
        ∃ proof bytes hs' p', Acc.prove Ram.vt F hs = .ok (some proof) ∧ Batch.serialize b1 proof [] = .ok bytes ∧ hs'.Perm hs ∧
          verifyBytes b2 p bytes hs' = .ok (true, p')) ∧
      ∀ (bytes : List Byte) (hs : List Hash32) (p' : Pollard Hash32), verifyBytes b2 p bytes hs = .ok (true, p') →
        (∀ x ∈ hs, x ∈ bs.foldl after []) ∨ ShaFound p' L := by
  obtain ⟨F, st, p, L, e1, e2, -, e4, e5⟩ := held_all bs [] [] _ _ _ [] (by simpa using Held.empty (H := Hash32)) List.nodup_nil
    (Ram.mk_inv.represents (f := leafFn HashOps.zero []) (by omega)) (List.Perm.refl _) hv
  obtain ⟨F', p0, rs, g1, g2, -⟩ := C45_history b1 b2 bs hv hk
  rw [e1] at g2
  obtain ⟨rfl, rfl⟩ := Prod.mk.inj (Except.ok.inj g2)
  obtain ⟨L0, A, hI⟩ := e2.sync.inv
  refine ⟨F, p, L, g1, e4, e5, ?_, ?_⟩
  · intro hs hnd hmem hlen hn
    rw [← e5.length_eq] at hn
    obtain ⟨r, c1, c2, c3⟩ := C22_prove F st hI.run L e4 hs
    obtain ⟨proof, rfl⟩ := Option.isSome_iff_exists.1 (c2.2 ⟨hnd, fun x hx => e5.mem_iff.2 (hmem x hx)⟩)
    obtain ⟨d1, d2, d3, -⟩ := c3 proof rfl
    obtain ⟨bytes, w1, -, w3⟩ := wire_trip b1 b2 hI.run e4 (fun _ => hn) hlen c1 []
    obtain ⟨-, -, q3, -⟩ := proof_shape hI.run e4 c1
    obtain ⟨hs', m1, m2⟩ := mapM_getLeaf e4 proof.sorted (fun t ht => q3 t (d3.mem_iff.1 ht))
    obtain ⟨p', v1, -⟩ := C24_complete F st p e2.sync L e4 hs proof c1 hs' m2
    refine ⟨proof, bytes, hs', p', c1, w1, ?_, ?_⟩
    · have : (hs'.map some).Perm (hs.map some) := by
        rw [m2, ← d1]; exact d3.map _
      exact (List.map_perm_map_iff (Option.some_injective _)).1 this
    · unfold verifyBytes
      rw [w3, ok_bind]; exact v1
  · intro bytes hs p' hver
    by_cases hc : ShaFound p' L
    · exact .inr hc
    left
    obtain ⟨ts, hashes, -, s2, s3⟩ := C45_sound b2 F st p e2.sync L e4 bytes hs p' hver
    intro x hx
    rcases s3 with rfl | h1 | ⟨D, -, -, hD⟩
    · rw [List.eq_nil_of_length_eq_zero s2] at hx; simp at hx
    · exact absurd (shaFound_of h1) hc
    · have : some x ∈ hs.map some := List.mem_map_of_mem hx
      rw [hD] at this
      obtain ⟨t, -, h1⟩ := List.mem_map.1 this
      exact e5.mem_iff.1 (List.mem_of_getElem? h1)

end Sha

/-! ## Concrete cases -/

section Examples
open Pol
attribute [local instance] toyOps32

/-- Five leaves, then two of them are deleted and one is added. -/
def wireBlocks : List (Block Hash32) :=
  [{ adds := [(toyHash 1, false, false), (toyHash 2, false, true), (toyHash 3, false, false), (toyHash 4, false, false), (toyHash 5, false, false)], dels := [] },
   { adds := [(toyHash 6, false, false)], dels := [toyHash 4, toyHash 2] }]

example : ValidBlocks [] wireBlocks ∧ ∀ b ∈ wireBlocks, b.dels.length ≤ 2000000 := by
  refine ⟨⟨by decide, by decide, by decide, by decide, by decide, by decide,
    by decide, by decide, by decide, by decide, by decide, by decide, trivial⟩, by decide⟩

/-- The blocks are played with bytes from a little-endian to a big-endian host. Then the leaves 5 and 3 are proved by 80 bytes; they
are accepted, also with the order of the targets on the wire swapped, and rejected for another leaf or without the last byte. -/
example : (do
      let (F, p) ← playWire false true wireBlocks (Ram.mk 0) (mk 0)
      match ← Acc.prove Ram.vt F [toyHash 5, toyHash 3] with
      | none => .error .exc
      | some proof =>
        let bytes ← Batch.serialize false proof []
        let hs ← proof.sorted.mapM (Ram.getLeaf F)
        let (a, _) ← verifyBytes true p bytes hs
        let (b, _) ← verifyBytes true p bytes [toyHash 3, toyHash 6]
        let (c, _) ← verifyBytes true p bytes.dropLast hs
        let (d, _) ← verifyBytes true p (bytes.take 8 ++ (bytes.drop 12).take 4 ++ (bytes.drop 8).take 4 ++ bytes.drop 16) hs
        return (F.numLeaves, proof.targets, bytes.length, [a, b, c, d])) = (.ok (4, [2, 1], 80, [true, false, false, true]) : Res _) := by decide +kernel

/-- The undo batch of the second block is written and read as bytes and leads back. -/
example : (do
      let (_, _, F) ← Ram.modify (Ram.mk 0) [(toyHash 1, false), (toyHash 2, false), (toyHash 3, false), (toyHash 4, false), (toyHash 5, false)] []
      match ← Ram.modify F [(toyHash 6, false)] [1, 3] with
      | (true, some u, G) =>
        let bytes ← Batch.serializeUndo true u []
        let (a, v) ← Batch.unserializeUndo false ⟨7, [3], []⟩ bytes
        let (b, F') ← Ram.undo G v
        return (bytes.length, u.hashes, a, b, (← Ram.readLeafRange F' 0 5) == (← Ram.readLeafRange F 0 5))
      | _ => .error .exc) = (.ok (80, [toyHash 4, toyHash 2], true, true, true) : Res _) := by decide +kernel

end Examples

end Utreexo
