import Verif.Proof.PolCount
import Verif.Proof.CopyBare

/-!
# Properties of `Pollard`: C23 - C30

`Sync F st p` are the histories of a forest `F` and a pollard `p` that follows it: blocks whose
deletions the pollard verified before or has all nodes for, calls of `Verify` with arbitrary arguments, and `Prune`.
-/

set_option linter.unusedSectionVars false

namespace Utreexo
open Spec Equiv

variable {H : Type} [DecidableEq H] [HashOps H]

namespace Pol

/-- Position of a node of a forest with the leaves `L`. -/
abbrev at' (L : List H) (r i : ℕ) : ℕ := posOf (St.numRows L.length) r i

/-- Merkle hash of a node over the leaves `L`. -/
abbrev node (L : List H) (r i : ℕ) : H := merkle HashOps.ph (leafFn HashOps.zero L) r i

/-- The pollard has cached two siblings that are not the nodes of the forest with leaves `L` but
have the same parent hash: a collision of the parent hash is in plain view. -/
def Collision (p : Pollard H) (L : List H) : Prop :=
  ∃ r j a b, InForest L.length (r + 1) j ∧ read p (at' L r (2 * j)) = .ok (some a) ∧
    read p (at' L r (2 * j + 1)) = .ok (some b) ∧ (a, b) ≠ (node L r (2 * j), node L r (2 * j + 1)) ∧
    HashOps.ph a b = HashOps.ph (node L r (2 * j)) (node L r (2 * j + 1))

/-- Any number of calls of `Verify` with arbitrary arguments lead from one pollard to another, and `V` are the
hashes in the calls that were accepted. -/
inductive Verifies (L : List H) : Pollard H → (H → Prop) → Pollard H → Prop
  | none {p : Pollard H} : Verifies L p (fun _ => False) p
  | next {p p1 p2 : Pollard H} {V : H → Prop} {proof : BatchProof H} {hs : List H} {b : Bool} :
      Verifies L p V p1 → verify p1 proof hs = .ok (b, p2) → (b = true → ¬ Collision p2 L) →
      Verifies L p (fun h => V h ∨ (b = true ∧ h ∈ hs)) p2

/-- The pollard has both children of every node above the leaf at position `t`. -/
def Known (L : List H) (p : Pollard H) (t : ℕ) : Prop :=
  ∀ r k, InForest L.length (r + 1) (k / 2) → t / 2 ^ (r + 1) = k / 2 → read p (at' L r k) ≠ .ok none

/-- The targets `D` are positions of leaves in `V` or of leaves that the pollard has all nodes for, or the pollard remembers every
leaf. -/
def Deletable (L : List H) (V : H → Prop) (p : Pollard H) (D : List ℕ) : Prop :=
  (∀ t ∈ D, (∃ h, L[t]? = some h ∧ V h) ∨ Known L p t) ∨ numCachedLeaves p = p.numLeaves

/-- `k` leaves are too few to complete one of the trees of a forest of `n` leaves to a taller one. -/
def TooFew (n k : ℕ) : Prop := ∃ t, 2 ^ t ∣ n ∧ k < 2 ^ t ∧ n + k ≤ 2 ^ 62

/-- The leaves can be added to a pollard without disturbing a copy of it: they are too few to complete a tree, or the pollard has nothing
but its roots and is not told to remember any of them. -/
def Apart (p : Pollard H) (leaves : List (Leaf H)) : Prop :=
  TooFew p.numLeaves leaves.length ∨ (numCachedLeaves p = 0 ∧ countNodes p = p.roots.length ∧ (∀ l ∈ leaves, l.2 = false) ∧
    p.numLeaves + leaves.length ≤ 2 ^ 62)

theorem Apart.bound {p : Pollard H} {leaves : List (Leaf H)} (h : Apart p leaves) : p.numLeaves + leaves.length ≤ 2 ^ 62 := by
  rcases h with ⟨_, -, -, h⟩ | ⟨-, -, -, h⟩ <;> exact h

/-- The histories of a forest (with its outstanding undo batches, see `Ram.Run`) and a pollard that
follows it. The remember flags of the two may differ. Proofs and target hashes given to `Verify`
are arbitrary. The deletions of a block must have been verified since the last block, in one or more
calls, unless the pollard has the nodes for them or remembers every leaf. A copy of the pollard may
be given leaves and then be destroyed: any leaves too few to be merged with its trees, or leaves not to be remembered
if the pollard has only its roots (`copied`). -/
inductive Sync : RamForest H → List (UndoBatch H × RamForest H) → Pollard H → Prop
  | empty : Sync (Ram.mk 0) [] (mk 0)
  | restored {F : RamForest H} {st : List (UndoBatch H × RamForest H)} {rs : List H} {p : Pollard H} :
      Ram.Run F st → Ram.roots F = .ok rs → fromRoots rs F.numLeaves = .ok p → Sync F st p
  | later {F F' : RamForest H} {st : List (UndoBatch H × RamForest H)} {u : UndoBatch H} {p p1 p2 : Pollard H} {L : List H}
      {V : H → Prop} {D : List ℕ} {leaves leaves' : List (Leaf H)} :
      Sync F st p → Ram.Represents F L → Verifies L p V p1 → Ram.Valid L (leaves.map Prod.fst) D →
      leaves'.map Prod.fst = leaves.map Prod.fst → Deletable L V p1 D →
      Ram.modify F leaves D = .ok (true, some u, F') → modify p1 leaves' D = .ok (true, p2) →
      Sync F' ((u, F) :: st) p2
  | verify {F : RamForest H} {st : List (UndoBatch H × RamForest H)} {p p' : Pollard H} {L : List H}
      {proof : BatchProof H} {hs : List H} {b : Bool} :
      Sync F st p → Ram.Represents F L → verify p proof hs = .ok (b, p') → (b = true → ¬ Collision p' L) → Sync F st p'
  | prune {F : RamForest H} {st : List (UndoBatch H × RamForest H)} {p p' : Pollard H} :
      Sync F st p → pruneAll p = .ok p' → Sync F st p'
  | rejected {F : RamForest H} {st : List (UndoBatch H × RamForest H)} {p p' : Pollard H} {leaves : List (Leaf H)}
      {targets : List ℕ} {b : Bool} : Sync F st p → ¬ (targets.Pairwise (· < ·) ∧ ∀ t ∈ targets, t < p.numLeaves) →
      modify p leaves targets = .ok (b, p') → Sync F st p'
  | reopen {F F' : RamForest H} {st st' : List (UndoBatch H × RamForest H)} {p : Pollard H} : Sync F st p →
      Ram.reopen F = .ok F' → st' <+: st → (∀ e ∈ st', e.2.numLeaves ≤ 2 ^ Nat.size F.numLeaves) → Sync F' st' p
  | copied {F : RamForest H} {st : List (UndoBatch H × RamForest H)} {p p' : Pollard H} {leaves : List (Leaf H)} : Sync F st p →
      Apart p leaves → modify p leaves [] = .ok (true, p') → Sync F st (copyAfterModify leaves [] p p')

/-! ## The invariant of a history -/

/-- The pollard has the forest's hashes. -/
structure SyncInv (F : RamForest H) (st : List (UndoBatch H × RamForest H)) (p : Pollard H) (L : List H) (A : Addr) : Prop where
  run : Ram.Run F st
  rep : Ram.Represents F L
  len : L.length ≤ 2 ^ 62
  inv : Inv p L.length (leafFn HashOps.zero L) A

theorem Inv.read_at {p : Pollard H} {L : List H} {A : Addr} (h : Inv p L.length (leafFn HashOps.zero L) A) (hn : L.length ≤ 2 ^ 62)
    {r i : ℕ} (hi : i < L.length / 2 ^ r) : read p (at' L r i) = .ok ((A r i).map fun _ => node L r i) := h.ph.read_ok hn hi

/-- The two ways to speak about a collision. -/
theorem coll_iff {p : Pollard H} {L : List H} {A : Addr} (h : PH p L.length A (cv p.ext A)) (hn : L.length ≤ 2 ^ 62) :
    Coll p.ext A L.length (leafFn HashOps.zero L) ↔ Collision p L := by
  constructor
  · rintro ⟨r, y, h1, h2, h3, h4, h5⟩
    obtain ⟨a, ha⟩ := Option.isSome_iff_exists.1 h2
    obtain ⟨b, hb⟩ := Option.isSome_iff_exists.1 h3
    have h1' := h1
    rw [div_succ_row] at h1'
    refine ⟨r, y, _, _, inForest_iff.2 h1, ?_, ?_, ?_, h5⟩
    · show read p (posOf _ _ _) = _
      rw [h.read_ok hn (by omega), ha]; rfl
    · show read p (posOf _ _ _) = _
      rw [h.read_ok hn (by omega), hb]; rfl
    · intro he
      exact h4 (Prod.mk.inj he)
  · rintro ⟨r, y, a, b, h1, h2, h3, h4, h5⟩
    have h1 := inForest_iff.1 h1
    have h1' := h1
    rw [div_succ_row] at h1'
    have h2 : read p (posOf _ _ _) = _ := h2
    have h3 : read p (posOf _ _ _) = _ := h3
    rw [h.read_ok hn (by omega)] at h2 h3
    cases ha : A r (2 * y) with
    | none => rw [ha] at h2; simp at h2
    | some pa =>
      cases hb : A r (2 * y + 1) with
      | none => rw [hb] at h3; simp at h3
      | some pb =>
        rw [ha] at h2
        rw [hb] at h3
        have ea : cv p.ext A r (2 * y) = a := by simpa using h2
        have eb : cv p.ext A r (2 * y + 1) = b := by simpa using h3
        refine ⟨r, y, h1, by rw [ha]; rfl, by rw [hb]; rfl, ?_, ?_⟩
        · rw [ea, eb]; rintro ⟨rfl, rfl⟩; exact h4 rfl
        · rw [ea, eb]; exact h5

theorem inv_no_coll {p : Pollard H} {L : List H} {A : Addr} (h : Inv p L.length (leafFn HashOps.zero L) A) (hn : L.length ≤ 2 ^ 62) :
    ¬ Collision p L := by
  rintro ⟨r, y, a, b, h1, h2, h3, h4, -⟩
  have h1 := inForest_iff.1 h1
  rw [div_succ_row] at h1
  rw [h.read_at hn (by omega)] at h2 h3
  cases ha : A r (2 * y) with
  | none => rw [ha] at h2; simp at h2
  | some pa =>
    cases hb : A r (2 * y + 1) with
    | none => rw [hb] at h3; simp at h3
    | some pb =>
      rw [ha] at h2
      rw [hb] at h3
      have ea : node L r (2 * y) = a := by simpa using h2
      have eb : node L r (2 * y + 1) = b := by simpa using h3
      exact h4 (by rw [ea, eb])

theorem modify_insane (p : Pollard H) (leaves : List (Leaf H)) (targets : List ℕ)
    (h : ¬ (targets.Pairwise (· < ·) ∧ ∀ t ∈ targets, t < p.numLeaves)) :
    modify p leaves targets = .ok (false, p) := by
  have hr : Acc.remove vt p targets = .ok (false, p) := by
    unfold Acc.remove
    have h0 : targets.length ≠ 0 := by
      intro h0
      have := List.eq_nil_of_length_eq_zero h0
      subst this
      exact h (by simp)
    rw [if_neg h0]
    simp only
    obtain ⟨b, hb1, hb2⟩ := C07_checkTargetsSanity p.numLeaves targets
    have : b = false := by
      cases b with
      | false => rfl
      | true => exact absurd (hb2.1 rfl) h
    subst this
    rw [hb1, ok_bind]; rfl
  unfold modify Acc.modify
  rw [hr, ok_bind]; rfl

theorem leafFn_get {L : List H} {i : ℕ} {h : H} : L[i]? = some h ↔ i < L.length ∧ leafFn HashOps.zero L i = h := by
  unfold leafFn
  rw [List.getD_eq_getElem?_getD]
  constructor
  · intro e
    exact ⟨(List.getElem?_eq_some_iff.1 e).1, by rw [e]; rfl⟩
  · rintro ⟨h1, h2⟩
    rw [List.getElem?_eq_getElem h1] at h2 ⊢
    rw [← h2]; rfl

/-- A remembered new leaf is entered at its position; no other key changes. -/
theorem addPosAll_find : ∀ (leaves : List (Leaf H)) (m : PosMap H) (n : ℕ), (leaves.map Prod.fst).Nodup →
    (∀ h, (∀ l ∈ leaves, l.2 = true → l.1 ≠ h) → PosMap.find (addPosAll m n leaves) h = PosMap.find m h) ∧
    (∀ i l, leaves[i]? = some l → l.2 = true → PosMap.find (addPosAll m n leaves) l.1 = some (n + i)) := by
  intro leaves
  induction leaves with
  | nil => intro m n _; exact ⟨fun h _ => rfl, fun i l h => by simp at h⟩
  | cons l ls ih =>
    intro m n hnd
    rw [List.map_cons, List.nodup_cons] at hnd
    obtain ⟨h1, h2⟩ := ih (addPos m n l) (n + 1) hnd.2
    constructor
    · intro h hh
      rw [addPosAll, h1 h (fun l' hl' => hh l' (by simp [hl']))]
      unfold addPos
      split
      · rw [PosMap.find_insert, if_neg]
        intro e
        exact hh l (by simp) (by assumption) e.symm
      · rfl
    · intro i l' hi hl'
      rw [addPosAll]
      cases i with
      | zero =>
        obtain rfl : l = l' := by simpa using hi
        rw [h1 l.1 (fun l' hl' _ e => hnd.1 (by rw [← e]; exact List.mem_map_of_mem hl'))]
        unfold addPos
        rw [if_pos hl', PosMap.find_insert, if_pos rfl]; rfl
      | succ i =>
        rw [h2 i l' (by simpa using hi) hl']
        congr 1; omega

/-- What a block does to the leaves a pollard remembers. -/
structure BlockTrk (p p' : Pollard H) (L L' : List H) (D : List ℕ) (leaves : List (Leaf H)) (A A' : Addr) : Prop where
  flag : ∀ i j h, L[i]? = some h → i ∉ D → L'[j]? = some h → Flag p.ext (rtOf L.length) A i → Flag p'.ext (rtOf L'.length) A' j
  low : ∀ i j h, L[i]? = some h → i ∉ D → L'[j]? = some h → j < L.length - D.length
  add : ∀ i l, leaves[i]? = some l → l.2 = true → L'[L.length - D.length + i]? = some l.1 ∧
    Flag p'.ext (rtOf L'.length) A' (L.length - D.length + i) ∧ PosMap.find p'.posmap l.1 = some (L.length - D.length + i)
  dom : ∀ h, (PosMap.find p'.posmap h).isSome ↔
    ((PosMap.find p.posmap h).isSome ∧ ∀ t ∈ D, L[t]? ≠ some h) ∨ (h, true) ∈ leaves
  know : ∀ i j h, L[i]? = some h → i ∉ D → L'[j]? = some h → (i ^^^ 1 < L.length → Flag p.ext (rtOf L.length) A (i ^^^ 1)) →
    (∀ k g, j ^^^ 1 < L.length - D.length → L'[j ^^^ 1]? = some g → L[k]? = some g → Flag p.ext (rtOf L.length) A k) →
    PosMap.find p.posmap h = some i → PosMap.find p'.posmap h = some j
  back : ∀ j, Flag p'.ext (rtOf L'.length) A' j →
    (∃ i h, L[i]? = some h ∧ i ∉ D ∧ L'[j]? = some h ∧ Flag p.ext (rtOf L.length) A i) ∨
    ∃ i l, leaves[i]? = some l ∧ l.2 = true ∧ j = L.length - D.length + i
  sparse : Sparse p.ext L.length A → Sparse p'.ext L'.length A'
  alone : ∀ (i j : ℕ) (h : H) (v : ℕ), L[i]? = some h → i ∉ D → L'[j]? = some h → ¬ j ^^^ 1 < L.length - D.length → v < 2 ^ 64 →
    PosMap.find p.posmap h = some v → PosMap.find p'.posmap h = some (mv i j v)
  seen : ∀ (i j k : ℕ) (h g : H) (v : ℕ), L[i]? = some h → i ∉ D → L'[j]? = some h → j ^^^ 1 < L.length - D.length → L'[j ^^^ 1]? = some g →
    L[k]? = some g → (Flag p.ext (rtOf L.length) A k ∨ (k = i ^^^ 1 ∧ (A 0 i).isSome)) → v < 2 ^ 64 →
    PosMap.find p.posmap h = some v → PosMap.find p'.posmap h = some (mv i j v)
  unseen : ∀ (i j k : ℕ) (h g : H) (v : ℕ), L[i]? = some h → i ∉ D → L'[j]? = some h → j ^^^ 1 < L.length - D.length → L'[j ^^^ 1]? = some g →
    L[k]? = some g → ¬ (Flag p.ext (rtOf L.length) A k ∨ (k = i ^^^ 1 ∧ (A 0 i).isSome)) → v < 2 ^ 64 →
    PosMap.find p.posmap h = some v → PosMap.find p'.posmap h = some (mv i (firstStop i k) v)
  old : ∀ (i j k : ℕ) (h g : H), L[i]? = some h → i ∉ D → L'[j]? = some h → j ^^^ 1 < L.length - D.length → L'[j ^^^ 1]? = some g →
    L[k]? = some g → ((A' 0 j).isSome ↔ (Flag p.ext (rtOf L.length) A k ∨ (k = i ^^^ 1 ∧ (A 0 i).isSome)))
  new : ∀ j, j < L'.length → j ^^^ 1 < L'.length → ¬ (j < L.length - D.length ∧ j ^^^ 1 < L.length - D.length) →
    ((A' 0 j).isSome ↔ Flag p'.ext (rtOf L'.length) A' j ∨ Flag p'.ext (rtOf L'.length) A' (j ^^^ 1))
  left : ∀ (i j : ℕ) (h : H), L[i]? = some h → i ∉ D → L'[j]? = some h → (PosMap.find p.posmap h = none → PosMap.find p'.posmap h = none)
  tight : TightBut L.length A D → Tight L'.length A'

/-- A leaf without a sibling in the forest is a root. -/
theorem rt_of_sib {n x : ℕ} (hx : x < n) (h : ¬ x ^^^ 1 < n) : rtOf n 0 x = true := by
  by_contra hc
  simp only [Bool.not_eq_true] at hc
  exact h (sib_lt hx hc)

/-- Only leaves are remembered. -/
theorem flag_lt {s : Pollard H} {n : ℕ} {f : ℕ → H} {A : Addr} (h : Inv s n f A) {x : ℕ} (hf : Flag s.ext (rtOf n) A x) : x < n := by
  obtain ⟨p, hp, -⟩ := hf.holder
  have key : ∀ y, A 0 y = some p → y < n := by
    intro y hy
    by_contra hc
    rw [h.out 0 y (by simpa using hc)] at hy
    simp at hy
  rcases holder_some hp with ⟨-, h2⟩ | ⟨h1, h2, h3⟩
  · exact key _ h2
  · have := sib_lt (key _ h3) h2
    rwa [sb_sb] at this

/-- Both apply a block whose targets are ready in the pollard. -/
theorem block_step {F : RamForest H} {st : List (UndoBatch H × RamForest H)} {p : Pollard H} {L : List H} {A : Addr}
    (h : SyncInv F st p L A) {D : List ℕ} {leaves leaves' : List (Leaf H)} (hv : Ram.Valid L (leaves.map Prod.fst) D)
    (hl : leaves'.map Prod.fst = leaves.map Prod.fst) (hr : D ≠ [] → PresAll L.length A D) :
    ∃ u F' p' L' A', Ram.modify F leaves D = .ok (true, some u, F') ∧ modify p leaves' D = .ok (true, p') ∧
      SyncInv F' ((u, F) :: st) p' L' A' ∧ Modified L (leaves.map Prod.fst) D L' ∧ BlockTrk p p' L L' D leaves' A A' := by
  obtain ⟨n, f, h1, h2, h3⟩ := h.run.inv
  have e := h.rep.unique (h1.represents h2)
  have hlen : L.length = n := by rw [e]; simp
  have hb : ∀ t ∈ D, t < n := fun t ht => by rw [← hlen]; exact hv.bound t ht
  have hv' := hv
  rw [e] at hv'
  obtain ⟨F', g, k1, k2, k3, k4⟩ := Ram.modify_step h1 h2 h3 hv'
  have hT : n - D.length + leaves.length ≤ 2 ^ 62 := by rw [← hlen]; simpa using hv.total
  have hll : leaves'.length = leaves.length := by simpa using congrArg List.length hl
  set σ := sg n (n - D.length) D (St.numRows n) 0 with hσ
  obtain ⟨f1, f2⟩ := Ram.sg_facts h2 hv.sorted hb
  have hlt : ∀ x, x < n → σ.symm x < n := by
    intro x hx
    by_contra hc
    have := f1 (σ.symm x) (by omega)
    have := σ.symm.injective this
    omega
  -- the pollard removes
  have rem : ∃ p1 A1, Acc.remove vt p D = .ok (true, p1) ∧ Inv p1 (n - D.length) (leafFn HashOps.zero L ∘ σ.symm) A1 ∧
      RemTrk p p1 n (n - D.length) D (leafFn HashOps.zero L) A A1 σ ∧ (Sparse p.ext n A → Sparse p1.ext (n - D.length) A1) ∧
      (TightBut n A D → Tight (n - D.length) A1) := by
    have hI := h.inv
    rw [hlen] at hI
    have hrd : PresAll n A D := by
      by_cases hD : D = []
      · subst hD; exact fun t ht => by simp at ht
      · rw [← hlen]; exact hr hD
    exact remove_ok hI h2 hv.sorted hb hrd
  obtain ⟨p1, A1, r1, r2, r3, r4, r5⟩ := rem
  obtain ⟨p2, A2, a1, a2, a3, a4, a5, a6, a7, a8⟩ := add_ok leaves' p1 _ _ A1 r2 (by omega)
  have hadd := Ram.addLeaves_range (leafFn HashOps.zero L ∘ σ.symm) (n - D.length) (leaves.map Prod.fst)
  have hL' : (List.range (n - D.length + leaves.length)).map g =
      (List.range (n - D.length + leaves.length)).map (Ram.addLeaves (leafFn HashOps.zero L ∘ σ.symm) (n - D.length) (leaves.map Prod.fst)) := by
    rw [List.length_map] at hadd
    rw [k4, hadd]
    congr 1
    apply List.map_congr_left
    intro x hx
    have hx : x < n - D.length := List.mem_range.1 hx
    show f (σ.symm x) = leafFn HashOps.zero L (σ.symm x)
    rw [e, Ram.leafFn_range f _ (hlt x (by omega))]
  refine ⟨_, F', p2, (List.range (n - D.length + leaves.length)).map g, A2, k1, ?_, ?_, ?_, ?_⟩
  · unfold modify Acc.modify
    rw [r1, ok_bind]
    simp only [Bool.not_true, Bool.false_eq_true, if_false]
    rw [a1, ok_bind]; rfl
  · refine ⟨Ram.Run.modify h.run h.rep hv k1, k2.represents hT, by simpa using hT, ?_⟩
    rw [hll, hl] at a2
    rw [List.length_map, List.length_range]
    refine a2.congr ?_
    intro x hx
    rw [hL', Ram.leafFn_range _ _ hx]
  · refine ⟨_, ?_, k4⟩
    rw [e, Ram.survivors_range, ← List.map_map]
    exact (Ram.range_perm f1 (Nat.sub_le _ _) f2).map f
  · have hnd : L.Nodup := by
      obtain ⟨L1, q1, q2, -⟩ := C16_represents F st h.run
      obtain rfl := h.rep.unique q1
      exact q2
    have hrun' := Ram.Run.modify h.run h.rep hv k1
    have hnd' : ((List.range (n - D.length + leaves.length)).map g).Nodup := by
      obtain ⟨L1, q1, q2, -⟩ := C16_represents F' _ hrun'
      obtain rfl := (k2.represents hT).unique q1
      exact q2
    have hdist : Dist n (leafFn HashOps.zero L) := by
      intro x y hx hy e
      exact (List.Nodup.getElem_inj_iff hnd).1 (by
        have h1 := (leafFn_get (h := leafFn HashOps.zero L y)).2 ⟨by omega, e⟩
        have h2 := (leafFn_get (L := L) (i := y)).2 ⟨by omega, rfl⟩
        rw [List.getElem?_eq_getElem (by omega : x < L.length)] at h1
        rw [List.getElem?_eq_getElem (by omega : y < L.length)] at h2
        exact (Option.some.inj h1).trans (Option.some.inj h2).symm)
    have hL1 : ∀ x, x < n - D.length → ((List.range (n - D.length + leaves.length)).map g)[x]? = some (leafFn HashOps.zero L (σ.symm x)) := by
      intro x hx
      rw [hL']
      rw [List.length_map] at hadd
      rw [hadd, List.getElem?_append_left (by simpa using hx)]
      simp [hx]
    have hL2 : ∀ i, ((List.range (n - D.length + leaves.length)).map g)[n - D.length + i]? = (leaves.map Prod.fst)[i]? := by
      intro i
      rw [k4, List.getElem?_append_right (by simp)]
      simp
    have hlen' : ((List.range (n - D.length + leaves.length)).map g).length = n - D.length + leaves'.length := by simp [hll]
    generalize (List.range (n - D.length + leaves.length)).map g = L' at *
    have hsig : ∀ i, i < n → i ∉ D → σ i < n - D.length := by
      intro i hi hiD
      by_contra hc
      have h3 : σ i < n := by
        by_contra hc2
        have := f1 (σ i) (by omega)
        rw [Equiv.symm_apply_apply] at this
        omega
      exact hiD (by have := (f2 (σ i) h3).1 (by omega); rwa [Equiv.symm_apply_apply] at this)
    have hinj' : ∀ (i j : ℕ) (g : H), L'[i]? = some g → L'[j]? = some g → i = j := by
      intro i j g e1 e2
      obtain ⟨b1, c1⟩ := List.getElem?_eq_some_iff.1 e1
      obtain ⟨b2, c2⟩ := List.getElem?_eq_some_iff.1 e2
      exact (List.Nodup.getElem_inj_iff hnd').1 (c1.trans c2.symm)
    have hinj : ∀ (i j : ℕ) (g : H), L[i]? = some g → L[j]? = some g → i = j := by
      intro i j g e1 e2
      obtain ⟨b1, c1⟩ := List.getElem?_eq_some_iff.1 e1
      obtain ⟨b2, c2⟩ := List.getElem?_eq_some_iff.1 e2
      exact (List.Nodup.getElem_inj_iff hnd).1 (c1.trans c2.symm)
    have hmove : ∀ (i j : ℕ) (h : H), L[i]? = some h → i ∉ D → L'[j]? = some h → j = σ i := by
      intro i j x e1 hiD e2
      obtain ⟨b1, b2⟩ := leafFn_get.1 e1
      refine hinj' _ _ _ e2 ?_
      rw [hL1 _ (hsig i (by omega) hiD), Equiv.symm_apply_apply, b2]
    have hfr : ∀ (i : ℕ) (h : H), L[i]? = some h → i ∉ D → ∀ l ∈ leaves', l.1 ≠ h := by
      intro i x e1 hiD l hl' e
      have h3 : l.1 ∈ leaves'.map Prod.fst := List.mem_map_of_mem hl'
      rw [hl] at h3
      obtain ⟨k, hk⟩ := List.mem_iff_getElem?.1 h3
      rw [← hL2, e] at hk
      have h4 := hmove _ _ _ e1 hiD hk
      have := hsig i (by have := (leafFn_get.1 e1).1; omega) hiD
      omega
    obtain ⟨w1, w2⟩ := addPosAll_find leaves' p1.posmap (n - D.length) (by rw [hl]; exact hv.distinct)
    rw [← a3] at w1 w2
    have hback : ∀ (j k : ℕ) (g : H), j < n - D.length → L'[j]? = some g → L[k]? = some g → k = σ.symm j := by
      intro j k x hj e1 e2
      rw [hL1 j hj] at e1
      have h4 : L[σ.symm j]? = some x := leafFn_get.2 ⟨by have := hlt j (by omega); omega, Option.some.inj e1⟩
      exact hinj _ _ _ e2 h4
    have hroot : ∀ j, j < n - D.length → ¬ j ^^^ 1 < n - D.length → (A1 0 j).isSome := by
      intro j h1 h2
      exact r2.ph.shape.root 0 j (rt_of_sib h1 h2)
    refine ⟨?_, ?_, ?_, ?_, ?_, ?_, ?_, ?_, ?_, ?_, ?_, ?_, ?_, ?_⟩
    all_goals (try rw [hlen])
    · intro i j x e1 hiD e2 hf
      obtain rfl := hmove _ _ _ e1 hiD e2
      rw [hlen']
      exact (a4 _).2 (.inl ((r3.flag i (hsig i (by have := (leafFn_get.1 e1).1; omega) hiD)).2 hf))
    · intro i j x e1 hiD e2
      rw [hmove _ _ _ e1 hiD e2]
      exact hsig i (by have := (leafFn_get.1 e1).1; omega) hiD
    · intro i l hi hl2
      refine ⟨?_, ?_, w2 i l hi hl2⟩
      · rw [hL2, ← hl, List.getElem?_map, hi]; rfl
      · rw [hlen']
        exact (a4 _).2 (.inr ⟨i, l, hi, hl2, rfl⟩)
    · intro x
      by_cases hx : (x, true) ∈ leaves'
      · refine iff_of_true ?_ (.inr hx)
        obtain ⟨i, hi⟩ := List.mem_iff_getElem?.1 hx
        have := w2 i _ hi rfl
        simp only at this
        rw [this]; rfl
      · rw [w1 x (fun l hl1 hl2 e => hx (by rw [← e, ← hl2]; exact hl1))]
        simp only [hx, or_false]
        by_cases hD : ∃ t ∈ D, L[t]? = some x
        · obtain ⟨t, ht, e⟩ := hD
          have := r3.gone t ht
          rw [(leafFn_get.1 e).2] at this
          rw [this]
          simp only [Option.isSome_none, Bool.false_eq_true, false_iff]
          exact fun hc => hc.2 t ht e
        · rw [r3.dom x (fun t ht e => hD ⟨t, ht, leafFn_get.2 ⟨by have := hb t ht; omega, e⟩⟩)]
          refine ⟨fun h3 => ⟨h3, fun t ht e => hD ⟨t, ht, e⟩⟩, fun h3 => h3.1⟩
    · intro i j x e1 hiD e2 s1 s2 hf
      obtain rfl := hmove _ _ _ e1 hiD e2
      obtain ⟨b1, b2⟩ := leafFn_get.1 e1
      have hsi := hsig i (by omega) hiD
      rw [w1 x (fun l hl1 _ => hfr i x e1 hiD l hl1), ← b2]
      rw [← b2] at hf
      refine r3.know hdist i (by omega) hiD ?_ ?_ hf
      · by_cases hc : i ^^^ 1 < n
        · exact .inr (s1 hc)
        · exact .inl (rt_of_sib (by omega) hc)
      · by_cases hc : σ i ^^^ 1 < n - D.length
        · right
          exact s2 _ _ hc (hL1 _ hc) (leafFn_get.2 ⟨by have := hlt (σ i ^^^ 1) (by omega); omega, rfl⟩)
        · exact .inl (rt_of_sib hsi hc)
    · intro j hf
      rw [hlen'] at hf
      rcases (a4 j).1 hf with h5 | h5
      · left
        have hj := flag_lt r2 h5
        have hjn : σ.symm j < n := hlt j (by omega)
        refine ⟨σ.symm j, leafFn HashOps.zero L (σ.symm j), leafFn_get.2 ⟨by omega, rfl⟩, ?_, hL1 j hj, ?_⟩
        · intro hD
          have := (f2 j (by omega)).2 hD
          omega
        · have := r3.flag (σ.symm j)
          rw [Equiv.apply_symm_apply] at this
          exact (this hj).1 h5
      · exact .inr h5
    · intro hsp
      rw [hlen']
      exact a5 (r4 hsp)
    · intro i j x v e1 hiD e2 hj hv64 hf
      obtain rfl := hmove _ _ _ e1 hiD e2
      obtain ⟨b1, b2⟩ := leafFn_get.1 e1
      have hsi := hsig i (by omega) hiD
      rw [w1 x (fun l hl1 _ => hfr i x e1 hiD l hl1), ← b2]
      rw [← b2] at hf
      rw [r3.entry hdist i v (by omega) hiD hv64 hf, if_pos (hroot _ hsi hj)]
    · intro i j k x y v e1 hiD e2 hj e3 e4 hc hv64 hf
      obtain rfl := hmove _ _ _ e1 hiD e2
      obtain rfl := hback _ _ _ hj e3 e4
      obtain ⟨b1, b2⟩ := leafFn_get.1 e1
      rw [w1 x (fun l hl1 _ => hfr i x e1 hiD l hl1), ← b2]
      rw [← b2] at hf
      rw [r3.entry hdist i v (by omega) hiD hv64 hf, if_pos ((r3.seen i (by omega) hiD hj).2 hc)]
    · intro i j k x y v e1 hiD e2 hj e3 e4 hc hv64 hf
      obtain rfl := hmove _ _ _ e1 hiD e2
      obtain rfl := hback _ _ _ hj e3 e4
      obtain ⟨b1, b2⟩ := leafFn_get.1 e1
      rw [w1 x (fun l hl1 _ => hfr i x e1 hiD l hl1), ← b2]
      rw [← b2] at hf
      rw [r3.entry hdist i v (by omega) hiD hv64 hf, if_neg (fun h6 => hc ((r3.seen i (by omega) hiD hj).1 h6))]
    · intro i j k x y e1 hiD e2 hj e3 e4
      obtain rfl := hmove _ _ _ e1 hiD e2
      obtain rfl := hback _ _ _ hj e3 e4
      obtain ⟨b1, b2⟩ := leafFn_get.1 e1
      rw [a6 _ (hsig i (by omega) hiD) hj]
      exact r3.seen i (by omega) hiD hj
    · intro j h1 h2 h3
      rw [hlen'] at h1 h2 ⊢
      exact a7 j h1 h2 h3
    · intro i j x e1 hiD e2 hf
      obtain ⟨b1, b2⟩ := leafFn_get.1 e1
      rw [w1 x (fun l hl1 _ => hfr i x e1 hiD l hl1)]
      have h5 := r3.dom x (fun t ht e => hiD (by
        rw [← b2] at e
        rw [← hdist _ _ (hb t ht) (by omega) e]; exact ht))
      rw [hf] at h5
      simpa using h5
    · intro hT
      rw [hlen']
      exact a8 (r5 hT)

/-- The objects of a pollard are determined by the pollard. -/
theorem Inv.addr_unique {p : Pollard H} {n : ℕ} {f f' : ℕ → H} {A A' : Addr} (h : Inv p n f A) (h' : Inv p n f' A') (hn : n ≤ 2 ^ 62) :
    A = A' := by
  funext r i
  by_cases hi : i < n / 2 ^ r
  · obtain ⟨t, path, -, -, g, -⟩ := readSiblings_ok h.ph.num hn (h.ph.shape.kidsFrom r) (fun q y p hp => (h.ph.shape.bnd q y p hp).2)
      h.ph.roots hi
    obtain ⟨t', path', -, -, g', -⟩ := readSiblings_ok h'.ph.num hn (h'.ph.shape.kidsFrom r)
      (fun q y p hp => (h'.ph.shape.bnd q y p hp).2) h'.ph.roots hi
    rw [g] at g'
    exact (Prod.mk.inj (Except.ok.inj g')).1
  · rw [h.out r i hi, h'.out r i hi]

theorem flag_ext {heap heap' : List (INode H)} {rt : ℕ → ℕ → Bool} {A A1 : Addr} (hk : FlagKeep heap heap' A)
    (h : ∀ r x p, A r x = some p → A1 r x = some p) {x : ℕ} (hf : Flag heap rt A x) : Flag heap' rt A1 x := by
  obtain ⟨p, h1, h2⟩ := hf.holder
  obtain ⟨j, hj⟩ := holder_addr h1
  unfold Flag
  rw [holder_ext h h1]
  exact hk j p hj h2

theorem Ready.ext {heap heap' : List (INode H)} {n : ℕ} {A A1 : Addr} {D : List ℕ} (h : Ready heap n A D) (hk : FlagKeep heap heap' A)
    (hA : ∀ r x p, A r x = some p → A1 r x = some p) : Ready heap' n A1 D := by
  refine ⟨fun t ht q h0 hq => ?_, fun t ht => flag_ext hk hA (h.flag t ht)⟩
  obtain ⟨h1, h2⟩ := h.pres t ht q h0 hq
  obtain ⟨x, hx⟩ := Option.isSome_iff_exists.1 h1
  obtain ⟨y, hy⟩ := Option.isSome_iff_exists.1 h2
  exact ⟨by rw [hA _ _ _ hx]; rfl, by rw [holder_ext hA hy]; rfl⟩

/-- All siblings on the path of a remembered leaf are cached. -/
theorem flag_path {heap : List (INode H)} {n : ℕ} {A : Addr} (s : Shape heap (rtOf n) A) {x : ℕ} (h : Flag heap (rtOf n) A x) :
    ∀ r, x / 2 ^ r < n / 2 ^ r → (holder (rtOf n) A r (x / 2 ^ r)).isSome := by
  intro r
  induction r with
  | zero =>
    intro _
    obtain ⟨p, hp, -⟩ := h.holder
    rw [pow_zero, Nat.div_one, hp]; rfl
  | succ r ih =>
    intro hr
    have hq : x / 2 ^ (r + 1) = x / 2 ^ r / 2 := by rw [pow_succ, Nat.div_div_eq_div_mul]
    have hin : x / 2 ^ r < n / 2 ^ r := by rw [hq, div_succ_row] at hr; omega
    have h1 := ih hin
    rw [hq] at hr ⊢
    have f1 : rtOf n r (x / 2 ^ r) = false := rtOf_false hr
    have f2 : rtOf n r (x / 2 ^ r ^^^ 1) = false := rtOf_false (by rw [sb_div]; exact hr)
    rw [holder_sib f1 f2, s.kids r _ f2, sb_div] at h1
    by_contra hc
    simp only [Option.not_isSome_iff_eq_none] at hc
    rw [hc] at h1
    simp [nz] at h1

/-- A pollard that remembers every leaf has every node. -/
theorem ready_all {heap : List (INode H)} {n : ℕ} {A : Addr} (s : Shape heap (rtOf n) A) (h : ∀ x, x < n → Flag heap (rtOf n) A x)
    {D : List ℕ} (hD : ∀ t ∈ D, t < n) : Ready heap n A D := by
  have key : ∀ q y, y < n / 2 ^ q → (holder (rtOf n) A q y).isSome := by
    intro q y hy
    have hq : 0 < 2 ^ q := by positivity
    have h1 : y * 2 ^ q < n := by
      have := (Nat.le_div_iff_mul_le hq).1 (Nat.succ_le_of_lt hy)
      rw [Nat.succ_mul] at this
      omega
    have h2 := flag_path s (h _ h1) q (by rw [Nat.mul_div_cancel _ hq]; exact hy)
    rwa [Nat.mul_div_cancel _ hq] at h2
  refine ⟨fun t ht q _ hq => ⟨?_, key q _ hq⟩, fun t ht => h t (hD t ht)⟩
  cases hr : rtOf n q (t / 2 ^ q) with
  | true =>
    have h1 := key q _ hq
    unfold holder at h1
    rwa [hr, if_pos rfl] at h1
  | false =>
    have hp := sib_in hq hr
    have h1 := key q (t / 2 ^ q ^^^ 1) (kid_in hp (sb_div _))
    have hr' : rtOf n q (t / 2 ^ q ^^^ 1) = false := kid_rt hp (sb_div _)
    rw [holder_sib hr' (by rw [sb_sb]; exact hr), sb_sb] at h1
    exact h1

/-- What calls of `Verify` leave behind. -/
theorem SyncInv.verifies {F : RamForest H} {st : List (UndoBatch H × RamForest H)} {p p' : Pollard H} {L : List H} {A : Addr}
    {V : H → Prop} (hI : SyncInv F st p L A) (hV : Verifies L p V p') :
    ∃ A', SyncInv F st p' L A' ∧ ∀ h, V h → ∃ t, L[t]? = some h ∧ Ready p'.ext L.length A' [t] := by
  induction hV with
  | none => exact ⟨A, hI, fun _ h => h.elim⟩
  | @next p1 p2 V proof hs b _ hver hnc ih =>
    obtain ⟨A1, hS, hR⟩ := ih
    rcases verify_ok hS.inv hS.len proof hs with ⟨e, -⟩ | ⟨e, -, h0⟩ | ⟨e, -⟩ | ⟨s', e, -, -, hs', hk, -⟩ | ⟨s', A2, e, -, ha, -⟩ <;> rw [e] at hver
    · obtain ⟨rfl, rfl⟩ : false = b ∧ p1 = p2 := by simpa using hver
      exact ⟨A1, hS, by simpa using hR⟩
    · obtain ⟨rfl, rfl⟩ : true = b ∧ p1 = p2 := by simpa using hver
      subst h0
      exact ⟨A1, hS, by simpa using hR⟩
    · simp at hver
    · obtain ⟨rfl, rfl⟩ : false = b ∧ s' = p2 := by simpa using hver
      refine ⟨A1, ⟨hS.run, hS.rep, hS.len, hs'⟩, fun h hh => ?_⟩
      obtain ⟨t, h1, h2⟩ := hR h (by simpa using hh)
      exact ⟨t, h1, h2.ext hk (fun _ _ _ h => h)⟩
    · obtain ⟨rfl, rfl⟩ : true = b ∧ s' = p2 := by simpa using hver
      have nc : ¬ Coll s'.ext A2 L.length (leafFn HashOps.zero L) := by rw [coll_iff ha.ph hS.len]; exact hnc rfl
      obtain ⟨k1, k2⟩ := ha.sound hS.inv nc
      refine ⟨A2, ⟨hS.run, hS.rep, hS.len, k1⟩, ?_⟩
      rintro h (hh | ⟨-, hh⟩)
      · obtain ⟨t, h1, h2⟩ := hR h hh
        exact ⟨t, h1, h2.ext ha.keep ha.ext⟩
      · rw [k2] at hh
        obtain ⟨t, ht, rfl⟩ := List.mem_map.1 hh
        refine ⟨t, leafFn_get.2 ⟨ha.sane.lt t ht, rfl⟩, fun x hx => ha.ready.pres x ?_, fun x hx => ha.ready.flag x ?_⟩
        all_goals
          rw [List.mem_singleton] at hx
          rwa [hx]

/-- The nodes above a leaf that the pollard has all nodes for have objects. -/
theorem SyncInv.known {F : RamForest H} {st : List (UndoBatch H × RamForest H)} {p : Pollard H} {L : List H} {A : Addr}
    (h : SyncInv F st p L A) {t : ℕ} (hk : Known L p t) : PresAll L.length A [t] := by
  intro t' ht q _ hq
  obtain rfl : t' = t := by simpa using ht
  cases hr : rtOf L.length q (t' / 2 ^ q) with
  | true => exact pres_root h.inv.ph.shape hr
  | false =>
    have hp := sib_in hq hr
    have key : ∀ k, k / 2 = t' / 2 ^ q / 2 → (A q k).isSome := by
      intro k e
      have h1 := hk q k ((Nat.le_div_iff_mul_le (Nat.two_pow_pos _)).1 (Nat.succ_le_of_lt (by rw [e]; exact hp))) (by rw [e, div_div_two])
      rw [h.inv.read_at h.len (kid_in hp e)] at h1
      cases ha : A q k with
      | none => rw [ha] at h1; exact absurd rfl h1
      | some a => rfl
    refine ⟨key _ rfl, ?_⟩
    have hr' : rtOf L.length q (t' / 2 ^ q ^^^ 1) = false := kid_rt hp (sb_div _)
    rw [holder_sib hr hr']
    exact key _ (sb_div _)

/-- The targets of a block are ready. -/
theorem SyncInv.ready {F : RamForest H} {st : List (UndoBatch H × RamForest H)} {p p' : Pollard H} {L : List H} {A A' : Addr}
    {V : H → Prop} {D : List ℕ} (hI : SyncInv F st p L A) (hV : Verifies L p V p') (hS : SyncInv F st p' L A') (hD : ∀ t ∈ D, t < L.length)
    (hd : Deletable L V p' D) : PresAll L.length A' D := by
  obtain ⟨A1, hS1, hR⟩ := hI.verifies hV
  obtain rfl := hS1.inv.addr_unique hS.inv hS.len
  rcases hd with hd | hd
  · have hnd : L.Nodup := by
      obtain ⟨L1, q1, q2, -⟩ := C16_represents F st hI.run
      obtain rfl := hI.rep.unique q1
      exact q2
    have key : ∀ t ∈ D, PresAll L.length A1 [t] := by
      intro t ht
      rcases hd t ht with ⟨h, h1, h2⟩ | hk
      swap
      · exact hS.known hk
      obtain ⟨t', h3, h4⟩ := hR h h2
      obtain ⟨b1, c1⟩ := List.getElem?_eq_some_iff.1 h1
      obtain ⟨b2, c2⟩ := List.getElem?_eq_some_iff.1 h3
      obtain rfl := (List.Nodup.getElem_inj_iff hnd).1 (c1.trans c2.symm)
      exact h4.pres
    exact fun t ht => key t ht t (by simp)
  · rw [hS.inv.ph.num, hS.inv.ph.numCached_ok hS.len] at hd
    refine (ready_all hS.inv.ph.shape (fun x hx => ?_) hD).pres
    have h1 := List.countP_eq_length (l := List.range L.length) (p := kidc p'.ext (rtOf L.length) A1 0)
    rw [List.length_range] at h1
    exact h1.1 hd x (List.mem_range.2 hx)

theorem SyncInv.copied {F : RamForest H} {st : List (UndoBatch H × RamForest H)} {p p' : Pollard H} {L : List H} {A : Addr}
    (h : SyncInv F st p L A) {leaves : List (Leaf H)} (hk : Apart p leaves) (hm : modify p leaves [] = .ok (true, p')) :
    SyncInv F st (copyAfterModify leaves [] p p') L A ∧ ∀ r i b, nz (copyAfterModify leaves [] p p').ext (holder (rtOf L.length) A r i) b =
      nz p.ext (holder (rtOf L.length) A r i) b := by
  rcases hk with ⟨t, h1, h2, h3⟩ | ⟨h0, h1, h2, -⟩
  · rw [h.inv.ph.num] at h1 h3
    obtain ⟨g1, g2⟩ := copy_add h.inv h1 h2 h3 hm
    exact ⟨⟨h.run, h.rep, h.len, g1⟩, g2⟩
  · obtain ⟨-, g1, g2⟩ := copy_bare h.inv (h.inv.bare h0 h1) h2 hm
    exact ⟨⟨h.run, h.rep, h.len, g1⟩, g2⟩

theorem SyncInv.same {F : RamForest H} {st : List (UndoBatch H × RamForest H)} {p p' : Pollard H} {L : List H} {A : Addr}
    (h : SyncInv F st p L A) {leaves : List (Leaf H)} (hk : Apart p leaves) (hm : modify p leaves [] = .ok (true, p')) :
    Same p.ext.length p.ext p'.ext := by
  rcases hk with ⟨t, h1, h2, h3⟩ | ⟨h0, h1, h2, -⟩
  · rw [h.inv.ph.num] at h1 h3
    exact (few_same h.inv h1 h2 h3 hm).1
  · exact (copy_bare h.inv (h.inv.bare h0 h1) h2 hm).1

theorem Sync.inv {F : RamForest H} {st : List (UndoBatch H × RamForest H)} {p : Pollard H} (h : Sync F st p) :
    ∃ L A, SyncInv F st p L A := by
  induction h with
  | empty =>
    obtain ⟨A, hA⟩ := mk_ok (H := H) (leafFn HashOps.zero [])
    exact ⟨[], A, Ram.Run.empty, Ram.mk_inv.represents (by omega), by simp, hA⟩
  | @restored F st rs p hrun hrs hp =>
    obtain ⟨L, hL, -, hlen⟩ := C16_represents F st hrun
    rw [hL.roots] at hrs
    obtain rfl := Except.ok.inj hrs
    rw [hL.count] at hp
    obtain ⟨s, e1, e2, -⟩ := fromRoots_ok hlen (leafFn HashOps.zero L)
    rw [e1] at hp
    obtain rfl := Except.ok.inj hp
    exact ⟨L, _, hrun, hL, hlen, e2⟩
  | @later F F' st u p p1 p2 L V D leaves leaves' _ hrep hver hv hl hd hm1 hm2 ih =>
    obtain ⟨L0, A, hI⟩ := ih
    obtain rfl := hrep.unique hI.rep
    obtain ⟨A1, hS, -⟩ := hI.verifies hver
    obtain ⟨u', G, q, L', A', k1, k2, k3, -⟩ := block_step hS hv hl (fun _ => hI.ready hver hS hv.bound hd)
    rw [k1] at hm1
    rw [k2] at hm2
    simp only [Except.ok.injEq, Prod.mk.injEq, Option.some.injEq, true_and] at hm1 hm2
    obtain ⟨rfl, rfl⟩ := hm1
    subst hm2
    exact ⟨L', A', k3⟩
  | @verify F st p p' L proof hs b _ hrep hver hnc ih =>
    obtain ⟨L0, A, hI⟩ := ih
    obtain rfl := hrep.unique hI.rep
    rcases verify_ok hI.inv hI.len proof hs with ⟨e, -⟩ | ⟨e, -⟩ | ⟨e, -⟩ | ⟨s', e, -, -, hs', -⟩ | ⟨s', A1, e, -, ha, -⟩ <;> rw [e] at hver
    · obtain ⟨-, rfl⟩ : false = b ∧ p = p' := by simpa using hver
      exact ⟨L, A, hI⟩
    · obtain ⟨-, rfl⟩ : true = b ∧ p = p' := by simpa using hver
      exact ⟨L, A, hI⟩
    · simp at hver
    · obtain ⟨-, rfl⟩ : false = b ∧ s' = p' := by simpa using hver
      exact ⟨L, A, hI.run, hI.rep, hI.len, hs'⟩
    · obtain ⟨rfl, rfl⟩ : true = b ∧ s' = p' := by simpa using hver
      have nc : ¬ Coll s'.ext A1 L.length (leafFn HashOps.zero L) := by rw [coll_iff ha.ph hI.len]; exact hnc rfl
      exact ⟨L, A1, hI.run, hI.rep, hI.len, (ha.sound hI.inv nc).1⟩
  | @prune F st p p' _ hp ih =>
    obtain ⟨L, A, hI⟩ := ih
    obtain ⟨s', e, h1, -⟩ := pruneAll_ok hI.inv hI.len
    rw [e] at hp
    obtain rfl := Except.ok.inj hp
    exact ⟨L, _, hI.run, hI.rep, hI.len, h1⟩
  | @rejected F st p p' leaves targets b _ hns hm ih =>
    rw [modify_insane _ _ _ hns] at hm
    obtain ⟨-, rfl⟩ : false = b ∧ p = p' := by simpa using hm
    exact ih
  | @reopen F F' st st' p _ ho hp hb ih =>
    obtain ⟨L, A, hI⟩ := ih
    have hrun := Ram.Run.reopen hI.run ho hp hb
    obtain ⟨n, f, h1, h2, -⟩ := hI.run.inv
    obtain ⟨s', k1, k2, k3⟩ := Ram.reopen_ok h1 h2
    rw [k1] at ho
    obtain rfl := Except.ok.inj ho
    have e := hI.rep.unique (h1.represents h2)
    refine ⟨L, A, hrun, ?_, hI.len, hI.inv⟩
    rw [e]
    exact k2.represents h2
  | @copied F st p p' leaves _ hk hm ih =>
    obtain ⟨L, A, hI⟩ := ih
    exact ⟨L, A, (hI.copied hk hm).1⟩

/-- Verifying the deletions of a block in one call. -/
theorem SyncInv.deletable {F : RamForest H} {st : List (UndoBatch H × RamForest H)} {p p1 : Pollard H} {L : List H} {A : Addr}
    {proof : BatchProof H} {hs : List H} (hI : SyncInv F st p L A) (hsrt : proof.targets = [] → proof.sorted = [])
    (hver : verify p proof hs = .ok (true, p1)) (hnc : ¬ Collision p1 L) :
    Verifies L p (fun h => False ∨ (true = true ∧ h ∈ hs)) p1 ∧ Deletable L (fun h => False ∨ (true = true ∧ h ∈ hs)) p1 proof.sorted ∧
      ∀ x, x ∈ hs ↔ ∃ t ∈ proof.sorted, L[t]? = some x := by
  refine ⟨.next .none hver (fun _ => hnc), ?_⟩
  rcases verify_ok hI.inv hI.len proof hs with ⟨e, -⟩ | ⟨e, ht, h0⟩ | ⟨e, -⟩ | ⟨s', e, -⟩ | ⟨s', A1, e, -, ha, -⟩ <;> rw [e] at hver
  · simp at hver
  · rw [hsrt ht, h0]
    exact ⟨.inl (by simp), by simp⟩
  · simp at hver
  · simp at hver
  · obtain rfl : s' = p1 := by simpa using hver
    have nc : ¬ Coll s'.ext A1 L.length (leafFn HashOps.zero L) := by rw [coll_iff ha.ph hI.len]; exact hnc
    obtain ⟨-, hhs⟩ := ha.sound hI.inv nc
    have hmem : ∀ x, x ∈ hs ↔ ∃ t ∈ proof.sorted, L[t]? = some x := by
      intro x
      rw [hhs, List.mem_map]
      constructor
      · rintro ⟨t, ht, rfl⟩
        exact ⟨t, ht, leafFn_get.2 ⟨ha.sane.lt t ht, rfl⟩⟩
      · rintro ⟨t, ht, e⟩
        exact ⟨t, ht, (leafFn_get.1 e).2⟩
    refine ⟨.inl fun t ht => ?_, hmem⟩
    have h1 := leafFn_get.2 ⟨ha.sane.lt t ht, rfl⟩
    exact .inl ⟨_, h1, .inr ⟨rfl, (hmem _).2 ⟨t, ht, h1⟩⟩⟩

/-- A block whose deletions are verified just before. -/
theorem Sync.block {F F' : RamForest H} {st : List (UndoBatch H × RamForest H)} {u : UndoBatch H} {p p1 p2 : Pollard H} {L : List H}
    {proof : BatchProof H} {hs : List H} {leaves leaves' : List (Leaf H)} (h : Sync F st p) (hrep : Ram.Represents F L)
    (hv : Ram.Valid L (leaves.map Prod.fst) proof.sorted) (hsrt : proof.targets = [] → proof.sorted = [])
    (hl : leaves'.map Prod.fst = leaves.map Prod.fst) (hver : Pol.verify p proof hs = .ok (true, p1)) (hnc : ¬ Collision p1 L)
    (hm1 : Ram.modify F leaves proof.sorted = .ok (true, some u, F')) (hm2 : modify p1 leaves' proof.sorted = .ok (true, p2)) :
    Sync F' ((u, F) :: st) p2 := by
  obtain ⟨L0, A, hI⟩ := h.inv
  obtain rfl := hrep.unique hI.rep
  obtain ⟨h1, h2, -⟩ := hI.deletable hsrt hver hnc
  exact .later h hrep h1 hv hl h2 hm1 hm2

end Pol

open Pol

/-! ## C23: blocks -/

/-- C23: after every history the pollard reports the leaf count and the roots of the forest. -/
theorem C23_agree (F : RamForest H) (st : List (UndoBatch H × RamForest H)) (p : Pollard H) (h : Sync F st p) :
    p.numLeaves = F.numLeaves ∧ ∃ rs, Ram.roots F = .ok rs ∧ Pol.roots p = .ok rs := by
  obtain ⟨L, A, hI⟩ := h.inv
  exact ⟨by rw [hI.inv.ph.num, hI.rep.count], _, hI.rep.roots, hI.inv.roots_ok⟩

/-! ## C24: completeness -/

/-- C24: a pollard in sync with a forest accepts every proof of the forest, with the hashes given in
the order of their positions, whatever is cached; and it stays in sync. -/
theorem C24_complete (F : RamForest H) (st : List (UndoBatch H × RamForest H)) (p : Pollard H) (h : Sync F st p) (L : List H)
    (hL : Ram.Represents F L) (hashes : List H) (proof : BatchProof H) (hp : Acc.prove Ram.vt F hashes = .ok (some proof))
    (hs : List H) (hhs : hs.map some = proof.sorted.map fun t => L[t]?) :
    ∃ p', verify p proof hs = .ok (true, p') ∧ ¬ Collision p' L ∧ Sync F st p' := by
  obtain ⟨L0, A, hI⟩ := h.inv
  obtain rfl := hL.unique hI.rep
  obtain ⟨r, e1, -, e3⟩ := C22_prove F st hI.run L hL hashes
  rw [e1] at hp
  obtain rfl := Except.ok.inj hp
  obtain ⟨g1, g2, g3, nodes, g4, g5, g6⟩ := e3 proof rfl
  have hlt : ∀ t ∈ proof.sorted, t < L.length := by
    intro t ht
    have : L[t]? ∈ hs.map some := by rw [hhs]; exact List.mem_map_of_mem ht
    obtain ⟨x, -, hx⟩ := List.mem_map.1 this
    by_contra hc
    rw [List.getElem?_eq_none (by omega)] at hx; simp at hx
  have hS : Sane L.length proof.sorted := ⟨hI.len, g2, hlt⟩
  have hlen : hs.length = proof.targets.length := by
    have := congrArg List.length hhs
    rw [List.length_map, List.length_map, g3.length_eq] at this
    exact this
  have hh : hs = proof.sorted.map (leafFn HashOps.zero L) := by
    apply List.map_injective_iff.2 (Option.some_injective H)
    rw [hhs, List.map_map]
    apply List.map_congr_left
    intro t ht
    have := hlt t ht
    simp only [Function.comp_apply, leafFn, List.getD_eq_getElem?_getD]
    rw [List.getElem?_eq_getElem this]; rfl
  have hon : Hon L.length (leafFn HashOps.zero L) A proof hs := by
    refine hon_full hh ?_
    rw [g6]
    refine hon_of hS g4 ?_ (mt (leafFn HashOps.zero L))
    intro r k
    rw [g5]
    unfold ProofNode
    simp only [g3.mem_iff]
  rcases verify_ok hI.inv hI.len proof hs with ⟨-, h1 | h1 | h1⟩ | ⟨e, -⟩ | ⟨-, h1, -⟩ | ⟨s', -, h1, -⟩ | ⟨s', A1, e, -, ha, -, hv⟩
  · exact absurd hlen h1
  · exact absurd hS h1
  · exact absurd hon h1
  · have := inv_no_coll hI.inv hI.len
    exact ⟨p, e, this, Sync.verify h hL e (fun _ => this)⟩
  · exact absurd hon h1
  · exact absurd hon h1
  · have hi := ha.inv (hv hon)
    have := inv_no_coll hi hI.len
    exact ⟨s', e, this, Sync.verify h hL e (fun _ => this)⟩

/-- C24: the same with `Prove` asked for the leaves of a set of positions. -/
theorem C24_positions (F : RamForest H) (st : List (UndoBatch H × RamForest H)) (p : Pollard H) (h : Sync F st p) (L : List H)
    (hL : Ram.Represents F L) (D : List ℕ) (hD : D.Pairwise (· < ·)) (hs : List H) (hhs : hs.map some = D.map fun t => L[t]?) :
    ∃ proof p', Acc.prove Ram.vt F hs = .ok (some proof) ∧ proof.sorted = D ∧ verify p proof hs = .ok (true, p') ∧ Sync F st p' := by
  obtain ⟨L0, A, hI⟩ := h.inv
  obtain rfl := hL.unique hI.rep
  obtain ⟨L1, hL1, hnd, -⟩ := C16_represents F st hI.run
  obtain rfl := hL.unique hL1
  have hget : ∀ (i j : ℕ) (x : H), L[i]? = some x → L[j]? = some x → i = j := by
    intro i j x h1 h2
    have h3 := (hL.find x i).2 h1
    rw [(hL.find x j).2 h2] at h3
    exact (Option.some.inj h3).symm
  have hmem : ∀ x ∈ hs, x ∈ L := by
    intro x hx
    have : some x ∈ D.map fun t => L[t]? := by rw [← hhs]; exact List.mem_map_of_mem hx
    obtain ⟨t, -, ht⟩ := List.mem_map.1 this
    exact List.mem_of_getElem? ht
  have hnd2 : hs.Nodup := by
    have : (D.map fun t => L[t]?).Nodup := by
      refine List.Nodup.map_on ?_ (hD.imp (fun h => by omega))
      intro i hi j hj he
      have : L[i]? ∈ hs.map some := by rw [hhs]; exact List.mem_map_of_mem hi
      obtain ⟨x, -, hx⟩ := List.mem_map.1 this
      exact hget i j x hx.symm (by rw [← he]; exact hx.symm)
    rw [← hhs] at this
    exact List.Nodup.of_map _ this
  obtain ⟨r, e1, e2, e3⟩ := C22_prove F st hI.run L hL hs
  obtain ⟨proof, rfl⟩ := Option.isSome_iff_exists.1 (e2.2 ⟨hnd2, hmem⟩)
  obtain ⟨g1, g2, g3, -⟩ := e3 proof rfl
  have ht : proof.targets = D := by
    rw [hhs] at g1
    refine map_inj_on _ _ ?_ g1
    intro i _ j hj he
    have : L[j]? ∈ hs.map some := by rw [hhs]; exact List.mem_map_of_mem hj
    obtain ⟨x, -, hx⟩ := List.mem_map.1 this
    exact hget i j x (by rw [he]; exact hx.symm) hx.symm
  have hsrt : proof.sorted = D := by
    rw [ht] at g3
    exact List.Perm.eq_of_pairwise (fun x y _ _ h1 h2 => by omega) g2 hD g3
  obtain ⟨p', a1, -, a3⟩ := C24_complete F st p h L hL hs proof e1 hs (by rw [hsrt]; exact hhs)
  exact ⟨proof, p', e1, hsrt, a1, a3⟩

/-- C23: when the forest proved the deletions of a valid block, the pollard accepts the proof, both
apply the block, and then they are in sync again. -/
theorem C23_apply (F : RamForest H) (st : List (UndoBatch H × RamForest H)) (p : Pollard H) (h : Sync F st p) (L : List H)
    (hL : Ram.Represents F L) (hashes : List H) (proof : BatchProof H) (hp : Acc.prove Ram.vt F hashes = .ok (some proof))
    (leaves leaves' : List (Leaf H)) (hl : leaves'.map Prod.fst = leaves.map Prod.fst)
    (hv : Ram.Valid L (leaves.map Prod.fst) proof.sorted) (hs : List H) (hhs : hs.map some = proof.sorted.map fun t => L[t]?) :
    ∃ p1 u F' p2 L', verify p proof hs = .ok (true, p1) ∧ Ram.modify F leaves proof.sorted = .ok (true, some u, F') ∧
      modify p1 leaves' proof.sorted = .ok (true, p2) ∧ Sync F' ((u, F) :: st) p2 ∧ Ram.Represents F' L' ∧
      Modified L (leaves.map Prod.fst) proof.sorted L' := by
  obtain ⟨p1, e3, hnc, -⟩ := C24_complete F st p h L hL hashes proof hp hs hhs
  obtain ⟨L0, A, hI⟩ := h.inv
  obtain rfl := hL.unique hI.rep
  obtain ⟨r, f1, -, f3⟩ := C22_prove F st hI.run L hL hashes
  rw [f1] at hp
  obtain rfl := Except.ok.inj hp
  have hperm := (f3 proof rfl).2.2.1
  have hsrt : proof.targets = [] → proof.sorted = [] := by
    intro he
    rw [he] at hperm
    exact hperm.eq_nil
  have key : ∃ A1, SyncInv F st p1 L A1 ∧ (proof.sorted ≠ [] → PresAll L.length A1 proof.sorted) := by
    rcases verify_ok hI.inv hI.len proof hs with ⟨e, -⟩ | ⟨e, ht, -⟩ | ⟨e, -⟩ | ⟨s', e, -⟩ | ⟨s', A1, e, -, ha, -⟩ <;> rw [e] at e3
    · simp at e3
    · obtain rfl : p = p1 := by simpa using e3
      exact ⟨A, hI, fun hne => absurd (hsrt ht) hne⟩
    · simp at e3
    · simp at e3
    · obtain rfl : s' = p1 := by simpa using e3
      have nc : ¬ Coll s'.ext A1 L.length (leafFn HashOps.zero L) := by rw [coll_iff ha.ph hI.len]; exact hnc
      exact ⟨A1, ⟨hI.run, hI.rep, hI.len, (ha.sound hI.inv nc).1⟩, fun _ => ha.ready.pres⟩
  obtain ⟨A1, hS, hR⟩ := key
  obtain ⟨u, F', p2, L', A', k1, k2, k3, k4⟩ := block_step hS hv hl hR
  exact ⟨p1, u, F', p2, L', e3, k1, k2, Sync.block h hL hv hsrt hl e3 hnc k1 k2, k3.rep, k4.1⟩

/-! ## C23: whole histories -/

namespace Pol

/-- A block: the leaves it adds, with the forest's and the pollard's remember flags, and the hashes
it deletes. -/
structure Block (H : Type) where
  adds : List (H × Bool × Bool)
  dels : List H

/-- The forest proves the deletions, the pollard verifies them (the hashes in the order of the
positions), and both apply the block. -/
def playBlock (F : RamForest H) (p : Pollard H) (b : Block H) : Res (RamForest H × Pollard H) := do
  match ← Acc.prove Ram.vt F b.dels with
  | none => .error .exc
  | some proof =>
    let hs ← proof.sorted.mapM (Ram.getLeaf F)
    match ← verify p proof hs with
    | (false, _) => .error .exc
    | (true, p1) =>
      match ← Ram.modify F (b.adds.map fun a => (a.1, a.2.1)) proof.sorted with
      | (false, _) => .error .exc
      | (true, _, F') =>
        match ← modify p1 (b.adds.map fun a => (a.1, a.2.2)) proof.sorted with
        | (false, _) => .error .exc
        | (true, p2) => return (F', p2)

/-- A sequence of blocks. -/
def play : List (Block H) → RamForest H → Pollard H → Res (RamForest H × Pollard H)
  | [], F, p => .ok (F, p)
  | b :: bs, F, p => do
    let (F, p) ← playBlock F p b
    play bs F p

/-- The set of leaves after a block. -/
def after (S : List H) (b : Block H) : List H := S.filter (fun x => !b.dels.contains x) ++ b.adds.map Prod.fst

/-- Blocks that delete leaves that exist and add leaves that do not exist. The two bounds on the
number of leaves are those of C16. -/
def ValidBlocks : List H → List (Block H) → Prop
  | _, [] => True
  | S, b :: bs => b.dels.Nodup ∧ (∀ x ∈ b.dels, x ∈ S) ∧ (b.adds.map Prod.fst).Nodup ∧
      (∀ x ∈ b.adds.map Prod.fst, x ∈ S → x ∈ b.dels) ∧ (b.dels ≠ [] → S.length < 2 ^ 32) ∧
      S.length - b.dels.length + b.adds.length ≤ 2 ^ 62 ∧ ValidBlocks (after S b) bs

theorem survivors_filter {L dels : List H} {D : List ℕ} (hnd : L.Nodup) (h : ∀ x, x ∈ dels ↔ ∃ t ∈ D, L[t]? = some x) :
    survivors L D = L.filter fun x => !dels.contains x := by
  have h1 : (L.zipIdx.filter fun p => !D.contains p.2) = L.zipIdx.filter fun p => !dels.contains p.1 := by
    apply List.filter_congr
    rintro ⟨x, i⟩ hp
    have hx := List.mem_zipIdx_iff_getElem?.1 hp
    have : i ∈ D ↔ x ∈ dels := by
      rw [h]
      constructor
      · intro hi; exact ⟨i, hi, hx⟩
      · rintro ⟨t, ht, he⟩
        have hl : i < L.length := by
          by_contra hc
          rw [List.getElem?_eq_none (by omega)] at hx; simp at hx
        have := (List.getElem?_inj hl hnd).1 (hx.trans he.symm)
        rw [this]; exact ht
    simp only [List.contains_eq_mem, this]
  unfold survivors
  rw [h1]
  have h2 : L.filter (fun x => !dels.contains x) = (L.zipIdx.map Prod.fst).filter fun x => !dels.contains x := by
    rw [List.zipIdx_map_fst]
  rw [h2, List.filter_map]
  rfl

theorem mapM_getLeaf {F : RamForest H} {L : List H} (hL : Ram.Represents F L) : ∀ (D : List ℕ), (∀ t ∈ D, t < L.length) →
    ∃ hs, D.mapM (Ram.getLeaf F) = .ok hs ∧ hs.map some = D.map fun t => L[t]? := by
  intro D
  induction D with
  | nil => intro _; exact ⟨[], rfl, rfl⟩
  | cons t D ih =>
    intro h
    obtain ⟨hs, e1, e2⟩ := ih (fun x hx => h x (by simp [hx]))
    have ht := h t (by simp)
    have hg : L[t]? = some L[t] := List.getElem?_eq_getElem ht
    refine ⟨L[t] :: hs, ?_, ?_⟩
    · rw [List.mapM_cons, hL.leaf t _ hg, ok_bind, e1, ok_bind]; rfl
    · rw [List.map_cons, List.map_cons, e2, hg]

/-- The calls of `playBlock` on a forest with leaves `L`. -/
structure Applied (F : RamForest H) (p : Pollard H) (L : List H) (b : Block H) (proof : BatchProof H) (hs : List H)
    (p1 : Pollard H) (u : UndoBatch H) (F' : RamForest H) (p' : Pollard H) (L' : List H) : Prop where
  valid : Ram.Valid L ((b.adds.map fun a => (a.1, a.2.1)).map Prod.fst) proof.sorted
  nil : proof.targets = [] → proof.sorted = []
  ver : verify p proof hs = .ok (true, p1)
  coll : ¬ Collision p1 L
  forest : Ram.modify F (b.adds.map fun a => (a.1, a.2.1)) proof.sorted = .ok (true, some u, F')
  pollard : modify p1 (b.adds.map fun a => (a.1, a.2.2)) proof.sorted = .ok (true, p')
  surv : survivors L proof.sorted = L.filter fun x => !b.dels.contains x
  mod : Modified L ((b.adds.map fun a => (a.1, a.2.1)).map Prod.fst) proof.sorted L'

theorem play_step {F : RamForest H} {st : List (UndoBatch H × RamForest H)} {p : Pollard H} (h : Sync F st p) {L S : List H}
    (hL : Ram.Represents F L) (hS : L.Perm S) {b : Block H} (h1 : b.dels.Nodup) (h2 : ∀ x ∈ b.dels, x ∈ S)
    (h3 : (b.adds.map Prod.fst).Nodup) (h4 : ∀ x ∈ b.adds.map Prod.fst, x ∈ S → x ∈ b.dels)
    (h5 : b.dels ≠ [] → S.length < 2 ^ 32) (h6 : S.length - b.dels.length + b.adds.length ≤ 2 ^ 62) :
    ∃ F' u p' L', playBlock F p b = .ok (F', p') ∧ Sync F' ((u, F) :: st) p' ∧ Ram.Represents F' L' ∧ L'.Perm (after S b) ∧
      ∃ proof hs p1, Applied F p L b proof hs p1 u F' p' L' := by
  obtain ⟨L0, A, hI⟩ := h.inv
  obtain rfl := hL.unique hI.rep
  obtain ⟨L1, hL1, hnd, -⟩ := C16_represents F st hI.run
  obtain rfl := hL.unique hL1
  obtain ⟨r, e1, e2, e3⟩ := C22_prove F st hI.run L hL b.dels
  obtain ⟨proof, rfl⟩ := Option.isSome_iff_exists.1 (e2.2 ⟨h1, fun x hx => hS.mem_iff.2 (h2 x hx)⟩)
  obtain ⟨g1, g2, g3, -⟩ := e3 proof rfl
  have hmem : ∀ x, x ∈ b.dels ↔ ∃ t ∈ proof.sorted, L[t]? = some x := by
    intro x
    constructor
    · intro hx
      have : some x ∈ b.dels.map some := List.mem_map_of_mem hx
      rw [← g1] at this
      obtain ⟨t, ht, he⟩ := List.mem_map.1 this
      exact ⟨t, g3.mem_iff.2 ht, he⟩
    · rintro ⟨t, ht, he⟩
      have : L[t]? ∈ proof.targets.map fun t => L[t]? := List.mem_map_of_mem (g3.mem_iff.1 ht)
      rw [g1, he] at this
      obtain ⟨y, hy, e⟩ := List.mem_map.1 this
      obtain rfl := Option.some.inj e
      exact hy
  have hlt : ∀ t ∈ proof.sorted, t < L.length := by
    intro t ht
    have : L[t]? ∈ proof.targets.map fun t => L[t]? := List.mem_map_of_mem (g3.mem_iff.1 ht)
    rw [g1] at this
    obtain ⟨y, -, e⟩ := List.mem_map.1 this
    by_contra hc
    rw [List.getElem?_eq_none (by omega)] at e; simp at e
  have hsurv := survivors_filter hnd hmem
  have hlen : proof.sorted.length = b.dels.length := by
    rw [g3.length_eq]
    simpa using congrArg List.length g1
  obtain ⟨hs, m1, m2⟩ := mapM_getLeaf hL proof.sorted hlt
  have hv : Ram.Valid L ((b.adds.map fun a => (a.1, a.2.1)).map Prod.fst) proof.sorted := by
    have hA : ((b.adds.map fun a => (a.1, a.2.1)).map Prod.fst) = b.adds.map Prod.fst := by rw [List.map_map]; rfl
    rw [hA]
    refine ⟨g2, hlt, h3, ?_, ?_, ?_⟩
    · intro x hx hxa
      rw [hsurv] at hx
      obtain ⟨hx1, hx2⟩ := List.mem_filter.1 hx
      have := h4 x hxa (hS.mem_iff.1 hx1)
      simp [this] at hx2
    · intro hne
      rw [hS.length_eq]
      apply h5
      intro he
      apply hne
      apply List.eq_nil_of_length_eq_zero
      rw [hlen, he]; rfl
    · rw [hS.length_eq, hlen]; simpa using h6
  obtain ⟨p1, u, F', p2, L', c3, c4, c5, c6, c7, K, c8, c9⟩ := C23_apply F st p h L hL b.dels proof e1
    (b.adds.map fun a => (a.1, a.2.1)) (b.adds.map fun a => (a.1, a.2.2)) (by simp [Function.comp_def]) hv hs m2
  obtain ⟨p1', d1, d2, -⟩ := C24_complete F st p h L hL b.dels proof e1 hs m2
  have hp1 : p1' = p1 := by
    rw [c3] at d1
    simpa using d1.symm
  rw [hp1] at d2
  refine ⟨F', u, p2, L', ?_, c6, c7, ?_, proof, hs, p1, hv, ?_, c3, d2, c4, c5, hsurv, K, c8, c9⟩
  rotate_left 2
  · intro he
    rw [he] at g3
    exact g3.eq_nil
  · unfold playBlock
    rw [e1, ok_bind]
    simp only
    rw [m1, ok_bind, c3, ok_bind]
    simp only
    rw [c4, ok_bind]
    simp only
    rw [c5, ok_bind]
    rfl
  · rw [c9]
    unfold after
    have hA : ((b.adds.map fun a => (a.1, a.2.1)).map Prod.fst) = b.adds.map Prod.fst := by rw [List.map_map]; rfl
    rw [hA]
    refine List.Perm.append ?_ (List.Perm.refl _)
    rw [hsurv] at c8
    exact c8.trans (hS.filter _)

end Pol

/-- C23: over every history of valid blocks all calls succeed, and at the end both report the same
leaf count and roots, namely those of an order of the leaves that are left. -/
theorem C23_history (bs : List (Block H)) (hv : ValidBlocks [] bs) :
    ∃ F p rs L, play bs (Ram.mk 0) (mk 0) = .ok (F, p) ∧ Ram.roots F = .ok rs ∧ Pol.roots p = .ok rs ∧
      p.numLeaves = F.numLeaves ∧ Ram.Represents F L ∧ L.Perm (bs.foldl after []) ∧
      rs = merkleRoots HashOps.ph (leafFn HashOps.zero L) L.length := by
  have key : ∀ (bs : List (Block H)) (S L : List H) (F : RamForest H) (st : List (UndoBatch H × RamForest H)) (p : Pollard H),
      Sync F st p → Ram.Represents F L → L.Perm S → ValidBlocks S bs →
      ∃ F' st' p' L', play bs F p = .ok (F', p') ∧ Sync F' st' p' ∧ Ram.Represents F' L' ∧ L'.Perm (bs.foldl after S) := by
    intro bs
    induction bs with
    | nil => intro S L F st p h hL hS _; exact ⟨F, st, p, L, rfl, h, hL, hS⟩
    | cons b bs ih =>
      rintro S L F st p h hL hS ⟨h1, h2, h3, h4, h5, h6, h7⟩
      obtain ⟨F1, u1, p1, L1, e1, e2, e3, e4, -⟩ := play_step h hL hS h1 h2 h3 h4 h5 h6
      obtain ⟨F', st', p', L', g1, g2, g3, g4⟩ := ih _ _ _ _ _ e2 e3 e4 h7
      refine ⟨F', st', p', L', ?_, g2, g3, g4⟩
      rw [play, e1, ok_bind]; exact g1
  obtain ⟨F, st, p, L, e1, e2, e3, e4⟩ := key bs [] [] _ _ _ Sync.empty (Ram.mk_inv.represents (f := leafFn HashOps.zero []) (by omega)) (List.Perm.refl _) hv
  obtain ⟨k1, rs, k2, k3⟩ := C23_agree F st p e2
  refine ⟨F, p, rs, L, e1, k2, k3, k1, e3, e4, ?_⟩
  have := e3.roots
  rw [k2] at this
  exact Except.ok.inj this

/-! ## C25: soundness -/

/-- C25: if a pollard in sync with a forest with leaves `L` accepts, then as many hashes as targets
were given, and the hashes are the leaves at the (sorted) target positions, unless the pollard now
shows a collision of the parent hash. -/
theorem C25_sound (F : RamForest H) (st : List (UndoBatch H × RamForest H)) (p : Pollard H) (h : Sync F st p) (L : List H)
    (hL : Ram.Represents F L) (proof : BatchProof H) (hs : List H) (p' : Pollard H) (hv : verify p proof hs = .ok (true, p')) :
    hs.length = proof.targets.length ∧
      (proof.targets = [] ∨ (proof.sorted.Pairwise (· < ·) ∧ hs.map some = proof.sorted.map fun t => L[t]?) ∨ Collision p' L) := by
  obtain ⟨L0, A, hI⟩ := h.inv
  obtain rfl := hL.unique hI.rep
  have hlen : hs.length = proof.targets.length := by
    by_contra hne
    unfold verify at hv
    rw [if_pos hne] at hv
    simp at hv
  refine ⟨hlen, ?_⟩
  rcases verify_ok hI.inv hI.len proof hs with ⟨e, -⟩ | ⟨-, ht, -⟩ | ⟨e, -⟩ | ⟨s', e, -⟩ | ⟨s', A1, e, -, ha, -⟩
  · rw [e] at hv; simp at hv
  · exact .inl ht
  · rw [e] at hv; simp at hv
  · rw [e] at hv; simp at hv
  · rw [e] at hv
    obtain rfl : s' = p' := by simpa using hv
    right
    by_cases hc : Collision s' L
    · exact .inr hc
    · left
      rw [← coll_iff ha.ph hI.len] at hc
      refine ⟨ha.sane.sorted, ?_⟩
      rw [(ha.sound hI.inv hc).2, List.map_map]
      apply List.map_congr_left
      intro t ht
      have hlt := ha.sane.lt t ht
      simp only [Function.comp_apply, leafFn, List.getD_eq_getElem?_getD]
      rw [List.getElem?_eq_getElem hlt]; rfl

/-- C25 for a parent hash without collisions. -/
theorem C25_injective (hinj : ∀ a b c d : H, HashOps.ph a b = HashOps.ph c d → a = c ∧ b = d) (F : RamForest H)
    (st : List (UndoBatch H × RamForest H)) (p : Pollard H) (h : Sync F st p) (L : List H)
    (hL : Ram.Represents F L) (proof : BatchProof H) (hs : List H) (p' : Pollard H) (hv : verify p proof hs = .ok (true, p'))
    (ht : proof.targets ≠ []) : hs.map some = proof.sorted.map fun t => L[t]? := by
  rcases (C25_sound F st p h L hL proof hs p' hv).2 with h1 | h1 | ⟨r, j, a, b, -, -, -, h1, h2⟩
  · exact absurd h1 ht
  · exact h1.2
  · obtain ⟨rfl, rfl⟩ := hinj _ _ _ _ h2
    exact absurd rfl h1

/-! ## C26: roots and leaf count -/

/-- C26: whatever is passed to `Verify` and whatever it answers, leaf count and roots stay. -/
theorem C26_roots (F : RamForest H) (st : List (UndoBatch H × RamForest H)) (p : Pollard H) (h : Sync F st p)
    (proof : BatchProof H) (hs : List H) (b : Bool) (p' : Pollard H) (hv : verify p proof hs = .ok (b, p')) :
    p'.numLeaves = p.numLeaves ∧ Pol.roots p' = Pol.roots p := by
  obtain ⟨L, A, hI⟩ := h.inv
  rcases verify_ok hI.inv hI.len proof hs with ⟨e, -⟩ | ⟨e, -⟩ | ⟨e, -⟩ | ⟨s', e, -, -, hs', -⟩ | ⟨s', A1, e, -, ha, -⟩ <;> rw [e] at hv
  · obtain ⟨-, rfl⟩ : false = b ∧ p = p' := by simpa using hv
    exact ⟨rfl, rfl⟩
  · obtain ⟨-, rfl⟩ : true = b ∧ p = p' := by simpa using hv
    exact ⟨rfl, rfl⟩
  · simp at hv
  · obtain ⟨-, rfl⟩ : false = b ∧ s' = p' := by simpa using hv
    exact ⟨by rw [hs'.ph.num, hI.inv.ph.num], by rw [hs'.roots_ok, hI.inv.roots_ok]⟩
  · obtain ⟨-, rfl⟩ : true = b ∧ s' = p' := by simpa using hv
    refine ⟨by rw [ha.ph.num, hI.inv.ph.num], ?_⟩
    rw [ha.ph.roots_ok, hI.inv.ph.roots_ok]
    congr 1
    apply List.map_congr_left
    intro e he
    obtain ⟨q, hq⟩ := Option.isSome_iff_exists.1 (hI.inv.ph.shape.root _ _ (mem_rootCoords he))
    exact ha.old _ _ q hq

/-- C26: `Verify` answers, whatever it is passed, as long as no cached hash is the zero hash. -/
theorem C26_answers (F : RamForest H) (st : List (UndoBatch H × RamForest H)) (p : Pollard H) (h : Sync F st p)
    (h0 : ∀ pos, read p pos ≠ .ok (some HashOps.zero)) (proof : BatchProof H) (hs : List H) :
    ∃ b p', verify p proof hs = .ok (b, p') := by
  obtain ⟨L, A, hI⟩ := h.inv
  rcases verify_ok hI.inv hI.len proof hs with ⟨e, -⟩ | ⟨e, -⟩ | ⟨-, -, r, x, q, hq, hz⟩ | ⟨s', e, -⟩ | ⟨s', A1, e, -⟩
  · exact ⟨_, _, e⟩
  · exact ⟨_, _, e⟩
  · exfalso
    have hx : x < L.length / 2 ^ r := by
      by_contra hc
      rw [hI.inv.out r x hc] at hq; simp at hq
    have := hI.inv.read_at hI.len hx
    rw [hq] at this
    refine h0 _ (this.trans ?_)
    show Except.ok (some (mt (leafFn HashOps.zero L) r x)) = _
    rw [hz]
  · exact ⟨_, _, e⟩
  · exact ⟨_, _, e⟩

/-! ## C27: rejected proofs -/

/-- Two pollards with the same cached hashes and position map give the same proofs. -/
theorem Pol.prove_congr {p p' : Pollard H} {L : List H} {A : Addr} (h : Inv p L.length (leafFn HashOps.zero L) A)
    (h' : Inv p' L.length (leafFn HashOps.zero L) A) (hn : L.length ≤ 2 ^ 62) (hpm : p'.posmap = p.posmap) (q : List H) :
    Acc.prove vt p' q = Acc.prove vt p q := by
  unfold Acc.prove
  rw [hpm, h'.ph.num, h.ph.num]
  cases hl : Acc.lookupTargets p.posmap q with
  | none => rfl
  | some ts =>
    simp only
    obtain ⟨b, hb1, hb2⟩ := C07_checkTargetsSanity L.length (St.sortU64 ts)
    rw [hb1, ok_bind, ok_bind]
    cases b with
    | false => rfl
    | true =>
      obtain ⟨hs, hlt⟩ := hb2.1 rfl
      obtain ⟨nodes, comp, q1, -, -, q4⟩ := Ram.proof_nodes hn hs hlt
      simp only [Bool.not_true, Bool.false_eq_true, if_false]
      rw [q1, ok_bind, ok_bind]
      rcases readProof_ok h.ph hn nodes q4 with ⟨a1, a2⟩ | ⟨⟨x, hx, a1⟩, a2⟩ <;>
        rcases readProof_ok h'.ph hn nodes q4 with ⟨b1, b2⟩ | ⟨⟨y, hy, b1⟩, b2⟩
      · simp only [a2, b2]
      · have := a1 y hy; rw [b1] at this; simp at this
      · have := b1 x hx; rw [a1] at this; simp at this
      · simp only [a2, b2]

/-- C27: a rejected proof leaves the cached hash of every node of the forest, the number of nodes,
the position map and all answers of `Prove` as they were. -/
theorem C27_rejected (F : RamForest H) (st : List (UndoBatch H × RamForest H)) (p : Pollard H) (h : Sync F st p)
    (proof : BatchProof H) (hs : List H) (p' : Pollard H) (hv : verify p proof hs = .ok (false, p')) :
    p'.posmap = p.posmap ∧ countNodes p' = countNodes p ∧
      (∀ r i, InForest p.numLeaves r i → read p' (posOf (St.numRows p.numLeaves) r i) = read p (posOf (St.numRows p.numLeaves) r i)) ∧
      ∀ q, Acc.prove vt p' q = Acc.prove vt p q := by
  obtain ⟨L, A, hI⟩ := h.inv
  have key : p'.posmap = p.posmap ∧ Inv p' L.length (leafFn HashOps.zero L) A := by
    rcases verify_ok hI.inv hI.len proof hs with ⟨e, -⟩ | ⟨e, -⟩ | ⟨e, -⟩ | ⟨s', e, -, hp, hs', -⟩ | ⟨s', A1, e, -⟩ <;> rw [e] at hv
    · obtain rfl : p = p' := by simpa using hv
      exact ⟨rfl, hI.inv⟩
    · simp at hv
    · simp at hv
    · obtain rfl : s' = p' := by simpa using hv
      exact ⟨hp, hs'⟩
    · simp at hv
  obtain ⟨k1, k2⟩ := key
  refine ⟨k1, by rw [k2.ph.countNodes_ok, hI.inv.ph.countNodes_ok], ?_, fun q => prove_congr hI.inv k2 hI.len k1 q⟩
  intro r i hi
  rw [hI.inv.ph.num, inForest_iff] at hi
  rw [hI.inv.ph.num, k2.ph.read_ok hI.len hi, hI.inv.ph.read_ok hI.len hi]

/-! ## C28: pruning -/

/-- C28: `Prune` succeeds, keeps leaf count and roots, and leaves one node per root and no
remembered leaf. -/
theorem C28_prune (F : RamForest H) (st : List (UndoBatch H × RamForest H)) (p : Pollard H) (h : Sync F st p) :
    ∃ p' rs, pruneAll p = .ok p' ∧ p'.numLeaves = p.numLeaves ∧ Pol.roots p = .ok rs ∧ Pol.roots p' = .ok rs ∧
      countNodes p' = rs.length ∧ numCachedLeaves p' = 0 ∧ Sync F st p' := by
  obtain ⟨L, A, hI⟩ := h.inv
  obtain ⟨s', e, h1, h2, -⟩ := pruneAll_ok hI.inv hI.len
  refine ⟨s', _, e, by rw [h1.ph.num, hI.inv.ph.num], hI.inv.roots_ok, h1.roots_ok, ?_, h2, Sync.prune h e⟩
  rw [h1.ph.countNodes_ok]
  have : ((rootCoords L.length).map fun e => cntA L.length (rootsOnly L.length A) e.1 e.2) = (rootCoords L.length).map fun _ => 1 := by
    apply List.map_congr_left
    intro e he
    have hrt := mem_rootCoords he
    exact cnt_rootsOnly (hI.inv.ph.shape.root _ _ hrt) (rootCoords_in he).1 hrt
  rw [this]
  unfold rootCoords merkleRoots
  simp [Function.comp_def]

/-- C28: after `Prune` exactly the roots are cached. -/
theorem C28_read (F : RamForest H) (st : List (UndoBatch H × RamForest H)) (p : Pollard H) (h : Sync F st p) (L : List H)
    (hL : Ram.Represents F L) (p' : Pollard H) (hp : pruneAll p = .ok p') (r i : ℕ) (hi : InForest L.length r i) :
    (InForest L.length (r + 1) (i / 2) → read p' (at' L r i) = .ok none) ∧
      (¬ InForest L.length (r + 1) (i / 2) → read p' (at' L r i) = .ok (some (node L r i))) := by
  obtain ⟨L0, A, hI⟩ := h.inv
  obtain rfl := hL.unique hI.rep
  obtain ⟨s', e, h1, -⟩ := pruneAll_ok hI.inv hI.len
  rw [e] at hp
  obtain rfl := Except.ok.inj hp
  have hi := inForest_iff.1 hi
  rw [h1.read_at hI.len hi]
  constructor
  · intro hq
    unfold rootsOnly
    rw [rtOf_false (inForest_iff.1 hq)]; rfl
  · intro hq
    rw [inForest_iff] at hq
    have hrt := (rtOf_iff hi).2 hq
    unfold rootsOnly
    rw [if_pos hrt]
    obtain ⟨q, hq⟩ := Option.isSome_iff_exists.1 (hI.inv.ph.shape.root _ _ hrt)
    rw [hq]; rfl

/-! ## C29: restoring -/

/-- C29: the roots and the leaf count of a forest make a pollard that holds just the roots and
follows the forest. -/
theorem C29_restore (F : RamForest H) (st : List (UndoBatch H × RamForest H)) (h : Ram.Run F st) :
    ∃ rs p, Ram.roots F = .ok rs ∧ fromRoots rs F.numLeaves = .ok p ∧ Pol.roots p = .ok rs ∧ p.numLeaves = F.numLeaves ∧ Sync F st p := by
  obtain ⟨L, hL, -, hlen⟩ := C16_represents F st h
  obtain ⟨s, e1, e2, -⟩ := fromRoots_ok hlen (leafFn HashOps.zero L)
  have e1' : fromRoots (merkleRoots HashOps.ph (leafFn HashOps.zero L) L.length) F.numLeaves = .ok s := by rw [hL.count]; exact e1
  exact ⟨_, s, hL.roots, e1', e2.roots_ok, by rw [e2.ph.num, hL.count], Sync.restored h hL.roots e1'⟩

/-- C29: it accepts every proof of the forest. -/
theorem C29_accepts (F : RamForest H) (st : List (UndoBatch H × RamForest H)) (h : Ram.Run F st) (L : List H)
    (hL : Ram.Represents F L) (rs : List H) (p : Pollard H) (hrs : Ram.roots F = .ok rs) (hp : fromRoots rs F.numLeaves = .ok p)
    (hashes : List H) (proof : BatchProof H) (hpr : Acc.prove Ram.vt F hashes = .ok (some proof))
    (hs : List H) (hhs : hs.map some = proof.sorted.map fun t => L[t]?) :
    ∃ p', verify p proof hs = .ok (true, p') := by
  obtain ⟨p', e, -⟩ := C24_complete F st p (Sync.restored h hrs hp) L hL hashes proof hpr hs hhs
  exact ⟨p', e⟩

/-! ## Concrete cases -/

section Examples

attribute [local instance] toyOps

/-- Three blocks: seven leaves, of which the pollard remembers two; three deletions and two
additions, one of which comes back at once; three more deletions. -/
def toyBlocks : List (Block ℕ) :=
  [{ adds := [(11, false, true), (12, false, false), (13, false, false), (14, false, false), (15, false, true), (16, false, false),
      (17, false, false)], dels := [] },
   { adds := [(21, true, false), (14, false, true)], dels := [11, 14, 15] },
   { adds := [], dels := [12, 21, 16] }]

/-- They meet the hypothesis of `C23_history`. -/
example : ValidBlocks [] toyBlocks := by
  refine ⟨by decide, by decide, by decide, by decide, by decide, by decide,
    by decide, by decide, by decide, by decide, by decide, by decide,
    by decide, by decide, by decide, by decide, by decide, by decide, trivial⟩

/-- Leaf count, roots of the forest, roots of the pollard, number of cached nodes. -/
def toyView (bs : List (Block ℕ)) : Res (ℕ × List ℕ × List ℕ × ℕ) := do
  let (F, p) ← play bs (Ram.mk 0) (mk 0)
  return (p.numLeaves, ← Ram.roots F, ← Pol.roots p, countNodes p)

example : toyView (toyBlocks.take 2) = .ok (6, [13121 * 1000 + 17161 * 10 + 1, 21141], [13121 * 1000 + 17161 * 10 + 1, 21141], 4) := by
  decide +kernel

example : toyView toyBlocks = .ok (3, [13171, 14], [13171, 14], 2) := by decide +kernel

/-- What the pollard does after the given blocks. -/
def toyAfter {α : Type} (bs : List (Block ℕ)) (k : RamForest ℕ → Pollard ℕ → Res α) : Res α := do
  let (F, p) ← play bs (Ram.mk 0) (mk 0)
  k F p

/-- `Verify` accepts a proof of the forest and remembers the leaves (C24), also on a pollard
restored from the roots (C29). -/
example : toyAfter (toyBlocks.take 1) (fun F p => do
      let pf ← Acc.prove Ram.vt F [16, 12]
      let q ← fromRoots (← Ram.roots F) F.numLeaves
      match pf with
      | none => .error .exc
      | some pf =>
        let (b, p) ← verify p pf [12, 16]
        let (c, q) ← verify q pf [12, 16]
        return (pf.sorted, pf.hashes, b, c, (← Acc.prove vt p [16, 12]) == some pf, (← Acc.prove vt q [16, 12]) == some pf)) =
    .ok ([1, 5], [11, 15, 13141], true, true, true, true) := by decide +kernel

/-- `Prune` leaves one node per root (C28). -/
example : toyAfter (toyBlocks.take 1) (fun _ p => do
      let p' ← pruneAll p
      return (countNodes p, numCachedLeaves p, countNodes p', numCachedLeaves p', (← Pol.roots p) == (← Pol.roots p'))) =
    .ok (8, 2, 3, 0, true) := by decide +kernel

/-- C25: without the alternative of a collision soundness is false. The toy hash has the collision
`ph 11 112 = ph 12 12`, and a restored pollard accepts the leaf 112. -/
theorem C25_collision_witness :
    toyAfter [{ adds := [(11, false, false), (112, false, false)], dels := [] }] (fun F p => do
      let (b, p') ← verify p { targets := [1], sorted := [1], hashes := [12] } [12]
      return (b, ← Ram.getLeaf F 1, ← read p' 1)) = .ok (true, 112, some 12) := by decide +kernel

/-- C26: the condition of `C26_answers` is needed. The pollard has cached a leaf with the zero hash;
`Verify` takes it for a missing hash and reads past the end of the proof (src/pollard.cpp:296). -/
theorem C26_zero_witness :
    toyAfter [{ adds := [(11, false, false), (0, false, true)], dels := [] }]
      (fun _ p => verify p { targets := [0], sorted := [0], hashes := [] } [11]) = .error .ub := by decide +kernel

/-- C27: a rejected proof may change which leaves are remembered, here from one to two
(`NumCachedLeaves`), although no hash, node or position changes. -/
theorem C27_flags_witness :
    toyAfter [{ adds := [(11, false, true), (12, false, false), (13, false, false), (14, false, false)], dels := [] }]
      (fun _ p => do
        let (b, p') ← verify p { targets := [1, 2], sorted := [1, 2], hashes := [11, 14] } [12, 99]
        return (b, numCachedLeaves p, numCachedLeaves p', countNodes p, countNodes p')) = .ok (false, 1, 2, 4, 4) := by decide +kernel

/-- C30 is false. The pollard remembers the leaf 13, whose sibling is not remembered, so the object
of the leaf itself is dropped when its sibling is deleted. The next deletion moves the leaf from
position 2 to position 0 without updating the position map. The pollard then gives a proof for
position 2 that is not the proof of the forest, and that the pollard itself does not accept. -/
theorem C30_false :
    toyAfter [{ adds := [(11, false, false), (12, false, false), (13, false, true), (14, false, false), (15, false, false)], dels := [] },
        { adds := [], dels := [14] }, { adds := [], dels := [11] }]
      (fun F p => do
        let a ← Acc.prove Ram.vt F [13]
        let b ← Acc.prove vt p [13]
        let v ← verify p { targets := [2], sorted := [2], hashes := [] } [13]
        return (← Ram.readLeafRange F 0 3, a, b, v.1)) =
    .ok ([13, 15, 12], some { targets := [0], sorted := [0], hashes := [15] },
      some { targets := [2], sorted := [2], hashes := [] }, false) := by decide +kernel

end Examples

end Utreexo
