import Verif.Props.Memory
import Verif.Props.Sha

/-!
# Leaf count and roots as a commitment

C43 (leaf count and roots determine the leaves unless the parent hash collides), C44 (soundness with
SHA-512/256).
-/

set_option linter.unusedSectionVars false

namespace Utreexo
open Spec Equiv

variable {H : Type} [DecidableEq H] [HashOps H]

/-- Two forests with as many leaves that differ below a node of the same hash: a collision of the parent hash. -/
def RootCollision (L M : List H) : Prop :=
  ∃ r j, InForest L.length (r + 1) j ∧ (Pol.node L r (2 * j), Pol.node L r (2 * j + 1)) ≠ (Pol.node M r (2 * j), Pol.node M r (2 * j + 1)) ∧
    HashOps.ph (Pol.node L r (2 * j)) (Pol.node L r (2 * j + 1)) = HashOps.ph (Pol.node M r (2 * j)) (Pol.node M r (2 * j + 1))

namespace Pol

/-- Equal hashes have equal leaves below or a collision. -/
theorem merkle_bind (f g : ℕ → H) (n : ℕ) : ∀ r i, InForest n r i → merkle HashOps.ph f r i = merkle HashOps.ph g r i →
    (∀ x, x / 2 ^ r = i → f x = g x) ∨ ∃ q j, InForest n (q + 1) j ∧
      (merkle HashOps.ph f q (2 * j), merkle HashOps.ph f q (2 * j + 1)) ≠ (merkle HashOps.ph g q (2 * j), merkle HashOps.ph g q (2 * j + 1)) ∧
      HashOps.ph (merkle HashOps.ph f q (2 * j)) (merkle HashOps.ph f q (2 * j + 1)) =
        HashOps.ph (merkle HashOps.ph g q (2 * j)) (merkle HashOps.ph g q (2 * j + 1)) := by
  intro r
  induction r with
  | zero =>
    intro i _ h
    left
    intro x hx
    rw [pow_zero, Nat.div_one] at hx
    rw [hx]; exact h
  | succ r ih =>
    intro i hi h
    have hk : ∀ b, b < 2 → InForest n r (2 * i + b) := by
      intro b hb
      unfold InForest at hi ⊢
      refine le_trans ?_ hi
      rw [pow_succ, show (i + 1) * (2 ^ r * 2) = (2 * i + 2) * 2 ^ r by ring]
      exact Nat.mul_le_mul_right _ (by omega)
    by_cases hp : (merkle HashOps.ph f r (2 * i), merkle HashOps.ph f r (2 * i + 1)) = (merkle HashOps.ph g r (2 * i), merkle HashOps.ph g r (2 * i + 1))
    · simp only [Prod.mk.injEq] at hp
      rcases ih (2 * i) (hk 0 (by omega)) hp.1 with h1 | h1
      · rcases ih (2 * i + 1) (hk 1 (by omega)) hp.2 with h2 | h2
        · left
          intro x hx
          rw [pow_succ, ← Nat.div_div_eq_div_mul] at hx
          have : x / 2 ^ r = 2 * i ∨ x / 2 ^ r = 2 * i + 1 := by omega
          rcases this with e | e
          · exact h1 x e
          · exact h2 x e
        · exact .inr h2
      · exact .inr h1
    · exact .inr ⟨r, i, hi, hp, h⟩

theorem roots_bind {L M : List H} (hlen : L.length = M.length) (hn : L.length ≤ 2 ^ 62)
    (h : merkleRoots HashOps.ph (leafFn HashOps.zero L) L.length = merkleRoots HashOps.ph (leafFn HashOps.zero M) M.length) :
    L = M ∨ RootCollision L M := by
  by_cases hc : RootCollision L M
  · exact .inr hc
  left
  apply List.ext_getElem?
  intro i
  by_cases hi : i < L.length
  · obtain ⟨t, -, ht⟩ := tree_of_in (q := 0) hn (by simpa using hi)
    have hti := inTree_root ht (Nat.zero_le _)
    rw [Nat.sub_zero] at hti
    have h64 : t < 64 := by
      by_contra hc
      have := ht.1
      rw [Nat.testBit_lt_two_pow (lt_of_le_of_lt hn (Nat.pow_lt_pow_right (by omega) (by omega)))] at this
      simp at this
    have hroot : InForest L.length t (rootIdx L.length t) := by
      rw [inForest_iff]; exact Ram.root_in ht.1
    have he : merkle HashOps.ph (leafFn HashOps.zero L) t (rootIdx L.length t) = merkle HashOps.ph (leafFn HashOps.zero M) t (rootIdx L.length t) := by
      unfold merkleRoots at h
      rw [← hlen] at h
      exact List.map_inj_left.1 h t (mem_treeRows.2 ⟨h64, ht.1⟩)
    rcases merkle_bind _ _ L.length t _ hroot he with h1 | ⟨q, j, h2, h3, h4⟩
    · have := h1 i hti
      rw [leafFn_get.2 ⟨hi, rfl⟩, this, leafFn_get.2 ⟨by omega, rfl⟩]
    · exact absurd ⟨q, j, h2, h3, h4⟩ hc
  · rw [List.getElem?_eq_none (by omega), List.getElem?_eq_none (by omega)]

end Pol

open Pol

/-! ## C43: binding -/

/-- C43: two forests with the same leaf count and the same roots, whatever their histories, cannot be told apart, or
their leaves give a collision of the parent hash. -/
theorem C43_forest (F G : RamForest H) (st st' : List (UndoBatch H × RamForest H)) (hF : Ram.Run F st) (hG : Ram.Run G st')
    (hn : F.numLeaves = G.numLeaves) (hr : Ram.roots F = Ram.roots G) (L M : List H) (hL : Ram.Represents F L) (hM : Ram.Represents G M) :
    (L = M ∧ Ram.Same F G) ∨ RootCollision L M := by
  obtain ⟨L1, q1, -, q3⟩ := C16_represents F st hF
  obtain rfl := hL.unique q1
  rw [hL.count, hM.count] at hn
  rw [hL.roots, hM.roots] at hr
  rcases roots_bind hn q3 (Except.ok.inj hr) with rfl | h
  · exact .inl ⟨rfl, hL.same hM⟩
  · exact .inr h

/-- C43: two pollards with the same leaf count and the same roots follow forests with the same leaves, or these give a
collision of the parent hash. -/
theorem C43_pollard (F G : RamForest H) (st st' : List (UndoBatch H × RamForest H)) (p q : Pollard H) (hp : Sync F st p)
    (hq : Sync G st' q) (hn : p.numLeaves = q.numLeaves) (hr : Pol.roots p = Pol.roots q) (L M : List H)
    (hL : Ram.Represents F L) (hM : Ram.Represents G M) : (L = M ∧ Ram.Same F G) ∨ RootCollision L M := by
  obtain ⟨L0, A, hI⟩ := hp.inv
  obtain ⟨M0, B, hJ⟩ := hq.inv
  obtain ⟨a1, rs, a2, a3⟩ := C23_agree F st p hp
  obtain ⟨b1, rs', b2, b3⟩ := C23_agree G st' q hq
  refine C43_forest F G st st' hI.run hJ.run (by rw [← a1, ← b1, hn]) ?_ L M hL hM
  rw [a3, b3] at hr
  rw [a2, b2, hr]

/-! ## C44: SHA-512/256

By the pigeonhole principle collisions exist, so "there is a collision" would say nothing.  The theorems name the collision: it
is what a search through the hashes at hand returns. -/

/-- The places (row and index of the parent, row counted from the children) of the inner nodes of a forest with `n` leaves. -/
def innerNodes (n : ℕ) : List (ℕ × ℕ) :=
  (List.range n.size).flatMap fun r => (List.range (n / 2 ^ (r + 1))).map fun j => (r, j)

/-- Go through the siblings that the pollard has cached and return those that are not the nodes of the forest with leaves `L` but have the
same parent hash, together with these nodes. -/
def findCollision (p : Pollard H) (L : List H) : Option ((H × H) × (H × H)) :=
  (innerNodes L.length).findSome? fun x =>
    match Pol.read p (Pol.at' L x.1 (2 * x.2)), Pol.read p (Pol.at' L x.1 (2 * x.2 + 1)) with
    | .ok (some a), .ok (some b) =>
      if (a, b) ≠ (Pol.node L x.1 (2 * x.2), Pol.node L x.1 (2 * x.2 + 1)) ∧
          HashOps.ph a b = HashOps.ph (Pol.node L x.1 (2 * x.2)) (Pol.node L x.1 (2 * x.2 + 1)) then
        some ((a, b), (Pol.node L x.1 (2 * x.2), Pol.node L x.1 (2 * x.2 + 1)))
      else none
    | _, _ => none

/-- Go through the siblings in the forests with leaves `L` and `M` and return those that differ but have the same parent hash. -/
def findRootCollision (L M : List H) : Option ((H × H) × (H × H)) :=
  (innerNodes L.length).findSome? fun x =>
    if (Pol.node L x.1 (2 * x.2), Pol.node L x.1 (2 * x.2 + 1)) ≠ (Pol.node M x.1 (2 * x.2), Pol.node M x.1 (2 * x.2 + 1)) ∧
        HashOps.ph (Pol.node L x.1 (2 * x.2)) (Pol.node L x.1 (2 * x.2 + 1)) = HashOps.ph (Pol.node M x.1 (2 * x.2)) (Pol.node M x.1 (2 * x.2 + 1)) then
      some ((Pol.node L x.1 (2 * x.2), Pol.node L x.1 (2 * x.2 + 1)), (Pol.node M x.1 (2 * x.2), Pol.node M x.1 (2 * x.2 + 1)))
    else none

/-- `m` and `m'` are different messages of 64 bytes with the same SHA-512/256 digest. -/
def ShaCollision (m m' : List Byte) : Prop :=
  m.length = 64 ∧ m'.length = 64 ∧ m ≠ m' ∧ Spec.Sha.sha512_256 m = Spec.Sha.sha512_256 m'

/-- The message that is hashed for a parent. -/
def message (x : Hash32 × Hash32) : List Byte := x.1.val ++ x.2.val

/-- The search through the pollard finds a collision of SHA-512/256. -/
def ShaFound [HashOps Hash32] (p : Pollard Hash32) (L : List Hash32) : Prop :=
  ∃ x y, findCollision p L = some (x, y) ∧ ShaCollision (message x) (message y)

namespace Pol

theorem mem_innerNodes {n r j : ℕ} : (r, j) ∈ innerNodes n ↔ InForest n (r + 1) j := by
  rw [inForest_iff]
  unfold innerNodes
  rw [List.mem_flatMap]
  constructor
  · rintro ⟨a, -, h⟩
    obtain ⟨b, h1, h2⟩ := List.mem_map.1 h
    simp only [Prod.mk.injEq] at h2
    obtain ⟨rfl, rfl⟩ := h2
    exact List.mem_range.1 h1
  · intro h
    refine ⟨r, List.mem_range.2 ?_, List.mem_map.2 ⟨j, List.mem_range.2 h, rfl⟩⟩
    rw [Nat.lt_size]
    by_contra hc
    rw [Nat.div_eq_of_lt (lt_trans (not_le.1 hc) (Nat.pow_lt_pow_right (by omega) (by omega)))] at h
    omega

/-- Whatever the search returns is a collision. -/
theorem findCollision_some {p : Pollard H} {L : List H} {x y : H × H} (h : findCollision p L = some (x, y)) :
    x ≠ y ∧ HashOps.ph x.1 x.2 = HashOps.ph y.1 y.2 := by
  obtain ⟨⟨r, j⟩, -, h1⟩ := List.exists_of_findSome?_eq_some h
  dsimp only at h1
  split at h1
  · split at h1
    · next hc =>
      simp only [Option.some.injEq, Prod.mk.injEq] at h1
      obtain ⟨rfl, rfl⟩ := h1
      exact hc
    · simp at h1
  · simp at h1

theorem findRootCollision_some {L M : List H} {x y : H × H} (h : findRootCollision L M = some (x, y)) :
    x ≠ y ∧ HashOps.ph x.1 x.2 = HashOps.ph y.1 y.2 := by
  obtain ⟨⟨r, j⟩, -, h1⟩ := List.exists_of_findSome?_eq_some h
  dsimp only at h1
  split at h1
  · next hc =>
    simp only [Option.some.injEq, Prod.mk.injEq] at h1
    obtain ⟨rfl, rfl⟩ := h1
    exact hc
  · simp at h1

/-- The search finds a collision that is in plain view. -/
theorem findCollision_of {p : Pollard H} {L : List H} (h : Collision p L) : ∃ x y, findCollision p L = some (x, y) := by
  obtain ⟨r, j, a, b, h1, h2, h3, h4, h5⟩ := h
  have : (findCollision p L).isSome := by
    unfold findCollision
    rw [List.findSome?_isSome_iff]
    refine ⟨(r, j), mem_innerNodes.2 h1, ?_⟩
    dsimp only
    rw [h2, h3]
    dsimp only
    rw [if_pos ⟨h4, h5⟩]
    rfl
  obtain ⟨⟨x, y⟩, e⟩ := Option.isSome_iff_exists.1 this
  exact ⟨x, y, e⟩

theorem findRootCollision_of {L M : List H} (h : RootCollision L M) : ∃ x y, findRootCollision L M = some (x, y) := by
  obtain ⟨r, j, h1, h4, h5⟩ := h
  have : (findRootCollision L M).isSome := by
    unfold findRootCollision
    rw [List.findSome?_isSome_iff]
    refine ⟨(r, j), mem_innerNodes.2 h1, ?_⟩
    dsimp only
    rw [if_pos ⟨h4, h5⟩]
    rfl
  obtain ⟨⟨x, y⟩, e⟩ := Option.isSome_iff_exists.1 this
  exact ⟨x, y, e⟩

theorem shaCollision_of {x y : Hash32 × Hash32} (hne : x ≠ y) (h : shaOps.ph x.1 x.2 = shaOps.ph y.1 y.2) :
    ShaCollision (message x) (message y) := by
  unfold message
  refine ⟨by simp [x.1.property, x.2.property], by simp [y.1.property, y.2.property], ?_, congrArg Subtype.val h⟩
  intro e
  obtain ⟨e1, e2⟩ := List.append_inj e (by rw [x.1.property, y.1.property])
  exact hne (Prod.ext (Subtype.ext e1) (Subtype.ext e2))

end Pol

section Sha
attribute [local instance] shaOps

theorem Pol.shaFound_of {p : Pollard Hash32} {L : List Hash32} (h : Collision p L) : ShaFound p L := by
  obtain ⟨x, y, e⟩ := findCollision_of h
  obtain ⟨e1, e2⟩ := findCollision_some e
  exact ⟨x, y, e, shaCollision_of e1 e2⟩

/-- C44: if a pollard with the hash function of the library accepts hashes for positions where the forest has other leaves, the search
through the pollard returns a collision of SHA-512/256. -/
theorem C44_sound (F : RamForest Hash32) (st : List (UndoBatch Hash32 × RamForest Hash32)) (p : Pollard Hash32) (h : Sync F st p)
    (L : List Hash32) (hL : Ram.Represents F L) (proof : BatchProof Hash32) (hs : List Hash32) (p' : Pollard Hash32)
    (hv : verify p proof hs = .ok (true, p')) (ht : proof.targets ≠ []) (hne : hs.map some ≠ proof.sorted.map fun t => L[t]?) :
    ShaFound p' L := by
  rcases (C25_sound F st p h L hL proof hs p' hv).2 with h1 | h1 | h1
  · exact absurd h1 ht
  · exact absurd h1.2 hne
  · exact shaFound_of h1

/-- C44: after every history of valid blocks the forest has the unspent leaves in some order, and when the pollard accepts a hash that is not
among them, the search through the pollard returns a collision of SHA-512/256. -/
theorem C44_history (bs : List (Block Hash32)) (hv : ValidBlocks [] bs) :
    ∃ F p L, play bs (Ram.mk 0) (mk 0) = .ok (F, p) ∧ Ram.Represents F L ∧ L.Perm (bs.foldl after []) ∧
      ∀ (proof : BatchProof Hash32) (hs : List Hash32) (p' : Pollard Hash32),
        verify p proof hs = .ok (true, p') → proof.targets ≠ [] → (∃ x ∈ hs, x ∉ bs.foldl after []) → ShaFound p' L := by
  obtain ⟨F, st, p, L, e1, e2, -, e4, e5⟩ := held_all bs [] [] _ _ _ [] (by simpa using Held.empty (H := Hash32)) List.nodup_nil
    (Ram.mk_inv.represents (f := leafFn HashOps.zero []) (by omega)) (List.Perm.refl _) hv
  refine ⟨F, p, L, e1, e4, e5, ?_⟩
  rintro proof hs p' hver ht ⟨x, hx, hn⟩
  refine C44_sound F st p e2.sync L e4 proof hs p' hver ht ?_
  intro e
  have : some x ∈ hs.map some := List.mem_map_of_mem hx
  rw [e] at this
  obtain ⟨t, -, h1⟩ := List.mem_map.1 this
  exact hn (e5.mem_iff.1 (List.mem_of_getElem? h1))

/-- C44: two forests with the same leaf count and the same roots hold the same leaves, or the search through their nodes returns a collision
of SHA-512/256. -/
theorem C44_roots (F G : RamForest Hash32) (st st' : List (UndoBatch Hash32 × RamForest Hash32)) (hF : Ram.Run F st) (hG : Ram.Run G st')
    (hn : F.numLeaves = G.numLeaves) (hr : Ram.roots F = Ram.roots G) (L M : List Hash32) (hL : Ram.Represents F L) (hM : Ram.Represents G M) :
    (L = M ∧ Ram.Same F G) ∨ ∃ x y, findRootCollision L M = some (x, y) ∧ ShaCollision (message x) (message y) := by
  rcases C43_forest F G st st' hF hG hn hr L M hL hM with h | h
  · exact .inl h
  · obtain ⟨x, y, e⟩ := findRootCollision_of h
    obtain ⟨e1, e2⟩ := findRootCollision_some e
    exact .inr ⟨x, y, e, shaCollision_of e1 e2⟩

end Sha

/-! ## Concrete cases -/

section Examples

attribute [local instance] toyOps

/-- The alternative of a collision in C43 is needed: the toy hash has the collision `ph 11 112 = ph 12 12` and the forests
over 11, 112 and 12, 12 have the same count and roots. -/
theorem C43_collision_witness : merkleRoots (H := ℕ) HashOps.ph (leafFn 0 [11, 112]) 2 = merkleRoots HashOps.ph (leafFn 0 [12, 12]) 2 ∧
    RootCollision [11, 112] [12, 12] := by
  refine ⟨by decide +kernel, 0, 0, by unfold InForest; decide, by decide, by decide⟩

/-- The searches return the collisions of the toy hash: between two forests, and in a pollard over 11, 112 that accepted the
hash 12 at position 0 (with the sibling 12 as proof). -/
example : findRootCollision (H := ℕ) [11, 112] [12, 12] = some ((11, 112), (12, 12)) := by decide +kernel

example : toyAfter [{ adds := [(11, true, false), (112, true, false)], dels := [] }] (fun _ p => do
      let (ok, p') ← verify p { targets := [0], sorted := [0], hashes := [12] } [12]
      return (ok, [findCollision p [11, 112], findCollision p' [11, 112]])) = .ok (true, [none, some ((12, 12), (11, 112))]) := by decide +kernel

/-- Two different histories with the same leaf count and the same roots (the hypotheses of `C43_forest`): deleting the last of
three leaves, and never adding it. -/
example : (do
      let (F, _) ← play [{ adds := [(1, false, false), (2, false, false), (3, false, false)], dels := [] }, { adds := [], dels := [3] }] (Ram.mk 0) (mk 0)
      let (G, _) ← play [{ adds := [(1, false, false), (2, false, false)], dels := [] }] (Ram.mk 0) (mk 0)
      return (F.numLeaves, G.numLeaves, ← Ram.roots F, ← Ram.roots G)) = (.ok (2, 2, [1021], [1021]) : Res _) := by decide +kernel

end Examples

end Utreexo
