import Verif.Props.Track
import Verif.Proof.PolCount
import Verif.Spec.Memo

/-!
# The memory of a pollard

C41 (number of nodes), C42 (number of remembered leaves).
-/

set_option linter.unusedSectionVars false

namespace Utreexo
open Spec Equiv

variable {H : Type} [DecidableEq H] [HashOps H]

namespace Pol

theorem SyncInv.sparse_verifies {F : RamForest H} {st : List (UndoBatch H × RamForest H)} {p p' : Pollard H} {L : List H} {A : Addr}
    {V : H → Prop} (hI : SyncInv F st p L A) (hsp : Sparse p.ext L.length A) (hV : Verifies L p V p') :
    ∃ A', SyncInv F st p' L A' ∧ Sparse p'.ext L.length A' := by
  induction hV with
  | none => exact ⟨A, hI, hsp⟩
  | @next p1 p2 V proof hs b _ hver hnc ih =>
    obtain ⟨A, hI, hsp⟩ := ih
    rcases verify_ok hI.inv hI.len proof hs with ⟨e, -⟩ | ⟨e, -⟩ | ⟨e, -⟩ | ⟨s', e, -, -, hs', hk, -⟩ | ⟨s', A1, e, -, ha, -⟩ <;> rw [e] at hver
    · obtain ⟨-, rfl⟩ : false = b ∧ p1 = p2 := by simpa using hver
      exact ⟨A, hI, hsp⟩
    · obtain ⟨-, rfl⟩ : true = b ∧ p1 = p2 := by simpa using hver
      exact ⟨A, hI, hsp⟩
    · simp at hver
    · obtain ⟨-, rfl⟩ : false = b ∧ s' = p2 := by simpa using hver
      exact ⟨A, ⟨hI.run, hI.rep, hI.len, hs'⟩, hsp.flags hs'.ph.shape hk⟩
    · obtain ⟨rfl, rfl⟩ : true = b ∧ s' = p2 := by simpa using hver
      have nc : ¬ Coll s'.ext A1 L.length (leafFn HashOps.zero L) := by rw [coll_iff ha.ph hI.len]; exact hnc rfl
      exact ⟨A1, ⟨hI.run, hI.rep, hI.len, (ha.sound hI.inv nc).1⟩, ha.sparse hsp⟩

/-- The pollard of every history caches nothing but paths of remembered leaves. -/
theorem Sync.sparse {F : RamForest H} {st : List (UndoBatch H × RamForest H)} {p : Pollard H} (h : Sync F st p) :
    ∃ L A, SyncInv F st p L A ∧ Sparse p.ext L.length A := by
  induction h with
  | empty =>
    obtain ⟨A, hA⟩ := mk_ok (H := H) (leafFn HashOps.zero [])
    exact ⟨[], A, ⟨Ram.Run.empty, Ram.mk_inv.represents (by omega), by simp, hA⟩, fun q x hx => by simp at hx⟩
  | @restored F st rs p hrun hrs hp =>
    obtain ⟨L, hL, -, hlen⟩ := C16_represents F st hrun
    rw [hL.roots] at hrs
    obtain rfl := Except.ok.inj hrs
    rw [hL.count] at hp
    obtain ⟨s, e1, e2, -⟩ := fromRoots_ok hlen (leafFn HashOps.zero L)
    rw [e1] at hp
    obtain rfl := Except.ok.inj hp
    refine ⟨L, _, ⟨hrun, hL, hlen, e2⟩, sparse_bare e2.ph.shape ?_⟩
    intro r i hr
    unfold rootAddr
    rw [hr]; rfl
  | @later F F' st u p p1 p2 L V D leaves leaves' _ hrep hver hv hl hd hm1 hm2 ih =>
    obtain ⟨L0, A, hI, hsp⟩ := ih
    obtain rfl := hrep.unique hI.rep
    obtain ⟨A1, hS, hsp1⟩ := hI.sparse_verifies hsp hver
    obtain ⟨u', G, q, L', A', k1, k2, k3, -, k5⟩ := block_step hS hv hl (fun _ => hI.ready hver hS hv.bound hd)
    rw [k1] at hm1
    rw [k2] at hm2
    simp only [Except.ok.injEq, Prod.mk.injEq, Option.some.injEq, true_and] at hm1 hm2
    obtain ⟨rfl, rfl⟩ := hm1
    subst hm2
    exact ⟨L', A', k3, k5.sparse hsp1⟩
  | @verify F st p p' L proof hs b _ hrep hver hnc ih =>
    obtain ⟨L0, A, hI, hsp⟩ := ih
    obtain rfl := hrep.unique hI.rep
    exact ⟨L, hI.sparse_verifies hsp (.next .none hver hnc)⟩
  | @prune F st p p' _ hp ih =>
    obtain ⟨L, A, hI, -⟩ := ih
    obtain ⟨s', e, h1, -⟩ := pruneAll_ok hI.inv hI.len
    rw [e] at hp
    obtain rfl := Except.ok.inj hp
    refine ⟨L, _, ⟨hI.run, hI.rep, hI.len, h1⟩, sparse_bare h1.ph.shape ?_⟩
    intro r i hr
    unfold rootsOnly
    rw [hr]; rfl
  | @rejected F st p p' leaves targets b _ hns hm ih =>
    rw [modify_insane _ _ _ hns] at hm
    obtain ⟨-, rfl⟩ : false = b ∧ p = p' := by simpa using hm
    exact ih
  | @reopen F F' st st' p _ ho hp hb ih =>
    obtain ⟨L, A, hI, hsp⟩ := ih
    have hrun := Ram.Run.reopen hI.run ho hp hb
    obtain ⟨n, f, h1, h2, -⟩ := hI.run.inv
    obtain ⟨s', k1, k2, k3⟩ := Ram.reopen_ok h1 h2
    rw [k1] at ho
    obtain rfl := Except.ok.inj ho
    have e := hI.rep.unique (h1.represents h2)
    refine ⟨L, A, ⟨hrun, ?_, hI.len, hI.inv⟩, hsp⟩
    rw [e]
    exact k2.represents h2
  | @copied F st p p' leaves _ hk hm ih =>
    obtain ⟨L, A, hI, hsp⟩ := ih
    obtain ⟨g1, g2⟩ := hI.copied hk hm
    exact ⟨L, A, g1, hsp.same g2⟩

end Pol

open Pol

/-! ## C41: the number of nodes -/

/-- C41: after every history a pollard of fewer than `2 ^ (R + 1)` leaves holds, besides its roots, at most
`2 * R` nodes for every remembered leaf. -/
theorem C41_memory (F : RamForest H) (st : List (UndoBatch H × RamForest H)) (p : Pollard H) (h : Sync F st p) (R : ℕ)
    (hR : p.numLeaves < 2 ^ (R + 1)) :
    ∃ rs, Pol.roots p = .ok rs ∧ rs.length ≤ countNodes p ∧ countNodes p ≤ rs.length + 2 * R * numCachedLeaves p := by
  obtain ⟨L, A, hI, hsp⟩ := h.sparse
  obtain ⟨rs, e1, e2⟩ : ∃ rs, Pol.roots p = .ok rs ∧ rs.length = (rootCoords L.length).length := by
    have := hI.inv.roots_ok
    exact ⟨_, this, by unfold merkleRoots rootCoords; simp⟩
  have hn : p.numLeaves = L.length := hI.inv.ph.num
  rw [hn] at hR
  refine ⟨rs, e1, ?_, by rw [e2]; exact hI.inv.ph.count_le hI.len hsp hR⟩
  rw [e2, hI.inv.ph.countNodes_ok]
  have : ∀ l : List (ℕ × ℕ), (∀ e ∈ l, e ∈ rootCoords L.length) → l.length ≤ (l.map fun e => cntA L.length A e.1 e.2).sum := by
    intro l
    induction l with
    | nil => simp
    | cons e l ih =>
      intro hl
      have he := hl e (by simp)
      have i1 := ih (fun e he => hl e (by simp [he]))
      have i2 := (cntA_eq hI.inv.ph.shape e.1 e.2 (rootCoords_in he).1).1 (mem_rootCoords he)
      simp only [List.map_cons, List.sum_cons, List.length_cons]
      omega
  exact this _ (fun _ he => he)

/-- C41: without remembered leaves only the roots are held. -/
theorem C41_roots (F : RamForest H) (st : List (UndoBatch H × RamForest H)) (p : Pollard H) (h : Sync F st p)
    (h0 : numCachedLeaves p = 0) : ∃ rs, Pol.roots p = .ok rs ∧ countNodes p = rs.length := by
  obtain ⟨rs, e1, e2, e3⟩ := C41_memory F st p h p.numLeaves (by
    have := Nat.lt_two_pow_self (n := p.numLeaves)
    rw [pow_succ]; omega)
  rw [h0] at e3
  exact ⟨rs, e1, by omega⟩

/-! ## C42: the remembered leaves -/

/-- The histories, with the leaves `Q` that the pollard remembers: a leaf comes in when it is added with the remember flag or verified,
and goes out when it is deleted or when the pollard is pruned. A rejected proof may also bring leaves in, as many as `NumCachedLeaves`
says: they are the first targets that are not remembered yet and have no neighbour or one that can be read. -/
inductive Held : RamForest H → List (UndoBatch H × RamForest H) → Pollard H → (H → Prop) → Prop
  | empty : Held (Ram.mk 0) [] (mk 0) (fun _ => False)
  | restored {F : RamForest H} {st : List (UndoBatch H × RamForest H)} {rs : List H} {p : Pollard H} :
      Ram.Run F st → Ram.roots F = .ok rs → fromRoots rs F.numLeaves = .ok p → Held F st p (fun _ => False)
  | later {F F' : RamForest H} {st : List (UndoBatch H × RamForest H)} {u : UndoBatch H} {p p1 p2 : Pollard H} {L : List H}
      {V : H → Prop} {D : List ℕ} {leaves leaves' : List (Leaf H)} {Q : H → Prop} :
      Held F st p1 Q → Sync F st p → Ram.Represents F L → Verifies L p V p1 → Ram.Valid L (leaves.map Prod.fst) D →
      leaves'.map Prod.fst = leaves.map Prod.fst → Deletable L V p1 D →
      Ram.modify F leaves D = .ok (true, some u, F') → modify p1 leaves' D = .ok (true, p2) →
      Held F' ((u, F) :: st) p2 (fun h => (Q h ∧ h ∈ survivors L D) ∨ (h, true) ∈ leaves')
  | verify {F : RamForest H} {st : List (UndoBatch H × RamForest H)} {p p' : Pollard H} {L : List H}
      {proof : BatchProof H} {hs : List H} {Q : H → Prop} :
      Held F st p Q → Ram.Represents F L → verify p proof hs = .ok (true, p') → ¬ Collision p' L →
      Held F st p' (fun h => Q h ∨ h ∈ hs)
  | refused {F : RamForest H} {st : List (UndoBatch H × RamForest H)} {p p' : Pollard H} {L : List H}
      {proof : BatchProof H} {hs : List H} {new : H → Bool} {Q : H → Prop} :
      Held F st p Q → Ram.Represents F L → verify p proof hs = .ok (false, p') →
      (∀ x ∈ L, new x = true ↔ ¬ Q x ∧ ∀ g, beside L x = some g → Pol.read p (L.idxOf g) = .ok (some g)) →
      Held F st p' (fun h => Q h ∨ h ∈ ((leavesAt L proof.sorted).filter new).take (numCachedLeaves p' - numCachedLeaves p))
  | prune {F : RamForest H} {st : List (UndoBatch H × RamForest H)} {p p' : Pollard H} {Q : H → Prop} :
      Held F st p Q → pruneAll p = .ok p' → Held F st p' (fun _ => False)
  | rejected {F : RamForest H} {st : List (UndoBatch H × RamForest H)} {p p' : Pollard H} {leaves : List (Leaf H)}
      {targets : List ℕ} {b : Bool} {Q : H → Prop} : Held F st p Q →
      ¬ (targets.Pairwise (· < ·) ∧ ∀ t ∈ targets, t < p.numLeaves) →
      modify p leaves targets = .ok (b, p') → Held F st p' Q
  | reopen {F F' : RamForest H} {st st' : List (UndoBatch H × RamForest H)} {p : Pollard H} {Q : H → Prop} : Held F st p Q →
      Ram.reopen F = .ok F' → st' <+: st → (∀ e ∈ st', e.2.numLeaves ≤ 2 ^ Nat.size F.numLeaves) → Held F' st' p Q
  | copied {F : RamForest H} {st : List (UndoBatch H × RamForest H)} {p p' : Pollard H} {leaves : List (Leaf H)} {Q : H → Prop} :
      Held F st p Q → Apart p leaves → modify p leaves [] = .ok (true, p') →
      Held F st (copyAfterModify leaves [] p p') Q

namespace Pol

theorem _root_.Utreexo.Held.sync {F : RamForest H} {st : List (UndoBatch H × RamForest H)} {p : Pollard H} {Q : H → Prop}
    (h : Held F st p Q) : Sync F st p := by
  induction h with
  | empty => exact .empty
  | restored h1 h2 h3 => exact .restored h1 h2 h3
  | later _ h0 h1 h2 h3 h4 h5 h6 h7 _ => exact .later h0 h1 h2 h3 h4 h5 h6 h7
  | verify _ h1 h2 h3 ih => exact .verify ih h1 h2 (fun _ => h3)
  | refused _ h1 h2 _ ih => exact .verify ih h1 h2 (by simp)
  | prune _ h1 ih => exact .prune ih h1
  | rejected _ h1 h2 ih => exact .rejected ih h1 h2
  | reopen _ h1 h2 h3 ih => exact .reopen ih h1 h2 h3
  | copied _ h1 h2 ih => exact .copied ih h1 h2

/-- The flags are those of the leaves in `Q`. -/
structure HInv (F : RamForest H) (st : List (UndoBatch H × RamForest H)) (p : Pollard H) (L : List H) (A : Addr)
    (Q : H → Prop) : Prop where
  sync : SyncInv F st p L A
  flag : ∀ i h, L[i]? = some h → (Flag p.ext (rtOf L.length) A i ↔ Q h)
  sub : ∀ h, Q h → h ∈ L

theorem HInv.accepted {F : RamForest H} {st : List (UndoBatch H × RamForest H)} {p p' : Pollard H} {L : List H} {A A1 : Addr}
    {Q : H → Prop} {D : List ℕ} {hs : List H} (h : HInv F st p L A Q)
    (ha : Accepted p p' L.length (leafFn HashOps.zero L) A A1 D hs) (nc : ¬ Coll p'.ext A1 L.length (leafFn HashOps.zero L)) :
    HInv F st p' L A1 (fun x => Q x ∨ x ∈ hs) ∧ ∀ x, x ∈ hs ↔ ∃ t ∈ D, L[t]? = some x := by
  obtain ⟨hinv, hhs⟩ := ha.sound h.sync.inv nc
  have hmem : ∀ x, x ∈ hs ↔ ∃ t ∈ D, L[t]? = some x := by
    intro x
    rw [hhs, List.mem_map]
    constructor
    · rintro ⟨t, ht, rfl⟩
      exact ⟨t, ht, leafFn_get.2 ⟨ha.sane.lt t ht, rfl⟩⟩
    · rintro ⟨t, ht, e⟩
      exact ⟨t, ht, (leafFn_get.1 e).2⟩
  refine ⟨⟨⟨h.sync.run, h.sync.rep, h.sync.len, hinv⟩, ?_, ?_⟩, hmem⟩
  · intro i x hx
    constructor
    · intro hf
      rcases ha.back i hf with h1 | h1
      · exact .inl ((h.flag i x hx).1 h1)
      · exact .inr ((hmem x).2 ⟨i, h1, hx⟩)
    · rintro (h1 | h1)
      · exact flag_ext ha.keep ha.ext ((h.flag i x hx).2 h1)
      · obtain ⟨t, ht, e⟩ := (hmem x).1 h1
        obtain rfl := get_inj h.sync.nodup e hx
        exact ha.ready.flag t ht
  · rintro x (h1 | h1)
    · exact h.sub x h1
    · obtain ⟨t, -, e⟩ := (hmem x).1 h1
      exact List.mem_of_getElem? e

theorem idx_eq {L : List H} (hnd : L.Nodup) {i : ℕ} {x : H} (h : L[i]? = some x) : L.idxOf x = i := by
  obtain ⟨h1, h2⟩ := List.getElem?_eq_some_iff.1 h
  rw [← h2]
  exact List.Nodup.idxOf_getElem hnd i h1

theorem beside_eq {L : List H} (hnd : L.Nodup) {i : ℕ} {x : H} (h : L[i]? = some x) : beside L x = L[i ^^^ 1]? := by
  unfold beside
  rw [if_pos (List.mem_of_getElem? h), idx_eq hnd h]

theorem beside_out {L : List H} {x : H} (h : x ∉ L) : beside L x = none := by
  unfold beside
  rw [if_neg h]

/-- The flags after a rejected proof, from the number of them. -/
theorem flags_refused {p p' : Pollard H} {n : ℕ} {f : ℕ → H} {A : Addr} (h : Inv p n f A) (h' : Inv p' n f A) (hn : n ≤ 2 ^ 62)
    {D : List ℕ} {hs : List H} (hF : FlagPre p.ext p'.ext n A D f hs) (i : ℕ) :
    Flag p'.ext (rtOf n) A i ↔ Flag p.ext (rtOf n) A i ∨
      i ∈ (D.filter fun t => !kidc p.ext (rtOf n) A 0 t && (holder (rtOf n) A 0 t).isSome).take (numCachedLeaves p' - numCachedLeaves p) := by
  obtain ⟨hS, m, hm, -⟩ := hF
  set cnd : ℕ → Bool := fun t => !kidc p.ext (rtOf n) A 0 t && (holder (rtOf n) A 0 t).isSome with hcnd
  have hpre : (D.take m).filter cnd <+: D.filter cnd := (List.take_prefix m D).filter cnd
  have hnd : D.Nodup := hS.sorted.imp fun h => Nat.ne_of_lt h
  have hmem : ∀ x, kidc p'.ext (rtOf n) A 0 x = true ↔ kidc p.ext (rtOf n) A 0 x = true ∨ x ∈ (D.take m).filter cnd := by
    intro x
    rw [List.mem_filter]
    have h1 : kidc p'.ext (rtOf n) A 0 x = true ↔ kidc p.ext (rtOf n) A 0 x = true ∨ (x ∈ D.take m ∧ (holder (rtOf n) A 0 x).isSome) := hm x
    rw [h1, hcnd]
    cases hk : kidc p.ext (rtOf n) A 0 x <;> simp [hk]
  have hperm : ((List.range n).filter (kidc p'.ext (rtOf n) A 0)).Perm
      ((List.range n).filter (kidc p.ext (rtOf n) A 0) ++ (D.take m).filter cnd) := by
    rw [List.perm_ext_iff_of_nodup (List.nodup_range.filter _)]
    · intro x
      rw [List.mem_append, List.mem_filter, List.mem_filter, hmem x, List.mem_range]
      constructor
      · rintro ⟨h1, h2 | h2⟩
        · exact .inl ⟨h1, h2⟩
        · exact .inr h2
      · rintro (⟨h1, h2⟩ | h2)
        · exact ⟨h1, .inl h2⟩
        · exact ⟨hS.lt x (List.mem_of_mem_take (List.mem_filter.1 h2).1), .inr h2⟩
    · rw [List.nodup_append]
      refine ⟨List.nodup_range.filter _, ((List.take_sublist m D).nodup hnd).filter _, ?_⟩
      rintro x hx y hy rfl
      have h1 := (List.mem_filter.1 hx).2
      have h2 := (List.mem_filter.1 hy).2
      rw [hcnd] at h2
      simp only [h1, Bool.not_true, Bool.false_and, Bool.false_eq_true] at h2
  have hlen : numCachedLeaves p' - numCachedLeaves p = ((D.take m).filter cnd).length := by
    rw [h.ph.numCached_ok hn, h'.ph.numCached_ok hn, List.countP_eq_length_filter, List.countP_eq_length_filter, hperm.length_eq,
      List.length_append]
    omega
  rw [hlen, ← List.prefix_iff_eq_take.1 hpre]
  exact hmem i

/-- The object for the flag of a leaf is there if the leaf has no neighbour or its neighbour can be read. -/
theorem SyncInv.near {F : RamForest H} {st : List (UndoBatch H × RamForest H)} {p : Pollard H} {L : List H} {A : Addr}
    (h : SyncInv F st p L A) {i : ℕ} {x : H} (hx : L[i]? = some x) :
    (holder (rtOf L.length) A 0 i).isSome ↔ ∀ g, beside L x = some g → Pol.read p (L.idxOf g) = .ok (some g) := by
  have hnd := h.nodup
  have hi := (List.getElem?_eq_some_iff.1 hx).1
  rw [beside_eq hnd hx]
  cases hr : rtOf L.length 0 i with
  | true =>
    rw [holder_root hr]
    refine iff_of_true (h.inv.ph.shape.root 0 i hr) ?_
    intro g hg
    have := (List.getElem?_eq_some_iff.1 hg).1
    rw [rtOf_iff (by simpa using hi)] at hr
    have := xor_one_cases i
    split at this <;> omega
  | false =>
    have hs : i ^^^ 1 < L.length := by
      by_contra hc
      rw [rt_of_sib hi hc] at hr
      simp at hr
    have hr' : rtOf L.length 0 (i ^^^ 1) = false := by
      by_contra hc
      simp only [Bool.not_eq_false] at hc
      rw [rtOf_iff (by simpa using hs)] at hc
      have := xor_one_cases i
      split at this <;> omega
    rw [holder_sib hr hr']
    obtain ⟨g, hg⟩ : ∃ g, L[i ^^^ 1]? = some g := ⟨_, List.getElem?_eq_getElem hs⟩
    have h1 := h.inv.read_at h.len (r := 0) (i := i ^^^ 1) (by simpa using hs)
    have h2 : at' L 0 (i ^^^ 1) = i ^^^ 1 := by unfold at'; exact posOf_zero _ _
    have h3 : node L 0 (i ^^^ 1) = g := by
      unfold node
      rw [(leafFn_get.1 hg).2.symm]; rfl
    rw [h2, h3] at h1
    constructor
    · intro hA g' hg'
      rw [hg] at hg'
      obtain rfl := Option.some.inj hg'
      obtain ⟨a, ha⟩ := Option.isSome_iff_exists.1 hA
      rw [idx_eq hnd hg, h1, ha]; rfl
    · intro hA
      have := hA g hg
      rw [idx_eq hnd hg, h1] at this
      cases hA' : A 0 (i ^^^ 1) with
      | none => rw [hA'] at this; simp at this
      | some a => rfl

theorem leavesAt_eq {L : List H} {D : List ℕ} (h : ∀ t ∈ D, t < L.length) : leavesAt L D = D.map (leafFn HashOps.zero L) := by
  unfold leavesAt
  induction D with
  | nil => rfl
  | cons t D ih =>
    have ht := h t (by simp)
    rw [List.filterMap_cons, leafFn_get.2 ⟨ht, rfl⟩, ih (fun t ht => h t (by simp [ht]))]
    rfl

/-- The invariant after a rejected proof; leaves that have become remembered and have an object came with their hash. -/
theorem HInv.refused {F : RamForest H} {st : List (UndoBatch H × RamForest H)} {p p' : Pollard H} {L : List H} {A : Addr}
    {proof : BatchProof H} {hs : List H} {new : H → Bool} {Q : H → Prop} (hI : HInv F st p L A Q)
    (hver : verify p proof hs = .ok (false, p'))
    (hnew : ∀ x ∈ L, new x = true ↔ ¬ Q x ∧ ∀ g, beside L x = some g → Pol.read p (L.idxOf g) = .ok (some g)) :
    HInv F st p' L A (fun h => Q h ∨ h ∈ ((leavesAt L proof.sorted).filter new).take (numCachedLeaves p' - numCachedLeaves p)) ∧
    ∀ (t : ℕ) (x : H), L[t]? = some x → Flag p'.ext (rtOf L.length) A t → ¬ Flag p.ext (rtOf L.length) A t →
      (holder (rtOf L.length) A 0 t).isSome ∧ ∃ i : ℕ, proof.sorted[i]? = some t ∧ ((A 0 t).isSome → hs[i]? = some x) := by
  rcases verify_ok hI.sync.inv hI.sync.len proof hs with ⟨e, -⟩ | ⟨e, -⟩ | ⟨e, -⟩ | ⟨s', e, -, -, hs', -, -, hF⟩ | ⟨s', A1, e, -⟩ <;>
    rw [e] at hver
  · obtain rfl : p = p' := by simpa using hver
    exact ⟨by simpa using hI, fun _ _ _ h h' => absurd h h'⟩
  · simp at hver
  · simp at hver
  · obtain rfl : s' = p' := by simpa using hver
    have hlt := hF.1.lt
    have hnd := hI.sync.nodup
    have hC : (leavesAt L proof.sorted).filter new =
        (proof.sorted.filter fun t => !kidc p.ext (rtOf L.length) A 0 t && (holder (rtOf L.length) A 0 t).isSome).map
          (leafFn HashOps.zero L) := by
      rw [leavesAt_eq hlt, List.filter_map]
      congr 1
      apply List.filter_congr
      intro t ht
      have hx : L[t]? = some (leafFn HashOps.zero L t) := leafFn_get.2 ⟨hlt t ht, rfl⟩
      rw [Bool.eq_iff_iff, Function.comp, hnew _ (List.mem_of_getElem? hx), ← hI.sync.near hx, ← hI.flag t _ hx]
      simp only [Bool.and_eq_true, Bool.not_eq_true', kidc, Flag, Bool.not_eq_true]
    have hmem : ∀ i x, L[i]? = some x → ∀ k, (x ∈ ((leavesAt L proof.sorted).filter new).take k ↔
        i ∈ (proof.sorted.filter fun t => !kidc p.ext (rtOf L.length) A 0 t && (holder (rtOf L.length) A 0 t).isSome).take k) := by
      intro i x hx k
      rw [hC, ← List.map_take, List.mem_map]
      constructor
      · rintro ⟨t, ht, rfl⟩
        have ht' := hlt t (List.mem_filter.1 (List.mem_of_mem_take ht)).1
        rwa [get_inj hnd hx (leafFn_get.2 ⟨ht', rfl⟩)]
      · intro hi
        exact ⟨i, hi, (leafFn_get.1 hx).2⟩
    refine ⟨⟨⟨hI.sync.run, hI.sync.rep, hI.sync.len, hs'⟩, fun i x hx => ?_, ?_⟩, ?_⟩
    · rw [flags_refused hI.sync.inv hs' hI.sync.len hF i, hmem i x hx, hI.flag i x hx]
    · rintro x (hx | hx)
      · exact hI.sub x hx
      · have h1 := (List.mem_filter.1 (List.mem_of_mem_take hx)).1
        rw [leavesAt, List.mem_filterMap] at h1
        obtain ⟨t, -, h2⟩ := h1
        exact List.mem_of_getElem? h2
    · intro t x hx h1 h2
      obtain ⟨-, m, k1, k2⟩ := hF
      rcases (k1 t).1 h1 with h | ⟨h, hh⟩
      · exact absurd h h2
      · obtain ⟨i, hi⟩ := List.mem_iff_getElem?.1 h
        rw [List.getElem?_take] at hi
        split at hi
        · next hlt' =>
          refine ⟨hh, i, hi, fun hA => ?_⟩
          rw [k2 i t hlt' hi hA, (leafFn_get.1 hx).2]
        · simp at hi
  · simp at hver

theorem _root_.Utreexo.Held.inv {F : RamForest H} {st : List (UndoBatch H × RamForest H)} {p : Pollard H} {Q : H → Prop}
    (h : Held F st p Q) : ∃ L A, HInv F st p L A Q := by
  induction h with
  | empty =>
    obtain ⟨A, hA⟩ := mk_ok (H := H) (leafFn HashOps.zero [])
    exact ⟨[], A, ⟨Ram.Run.empty, Ram.mk_inv.represents (by omega), by simp, hA⟩, fun i h hx => by simp at hx, fun _ h => h.elim⟩
  | @restored F st rs p hrun hrs hp =>
    obtain ⟨L, hL, -, hlen⟩ := C16_represents F st hrun
    rw [hL.roots] at hrs
    obtain rfl := Except.ok.inj hrs
    rw [hL.count] at hp
    obtain ⟨s, e1, e2, -, e4⟩ := fromRoots_ok hlen (leafFn HashOps.zero L)
    rw [e1] at hp
    obtain rfl := Except.ok.inj hp
    exact ⟨L, _, ⟨hrun, hL, hlen, e2⟩, fun i h _ => iff_of_false (e4 i) (fun h => h), fun _ h => h.elim⟩
  | @later F F' st u p p1 p2 L V D leaves leaves' Q _ hsy hrep hver hv hl hd hm1 hm2 ih =>
    obtain ⟨L0, A1, hS⟩ := ih
    obtain rfl := hrep.unique hS.sync.rep
    obtain ⟨L3, A0, hI0⟩ := hsy.inv
    obtain rfl := hrep.unique hI0.rep
    obtain ⟨u', G, q, L', A', k1, k2, k3, k4, k5⟩ := block_step hS.sync hv hl (fun _ => hI0.ready hver hS.sync hv.bound hd)
    rw [k1] at hm1
    rw [k2] at hm2
    simp only [Except.ok.injEq, Prod.mk.injEq, Option.some.injEq, true_and] at hm1 hm2
    obtain ⟨rfl, rfl⟩ := hm1
    subst hm2
    have hnd := hS.sync.nodup
    -- survivors are in the list after the block
    have hsurv : ∀ x ∈ survivors L D, x ∈ L' := by
      intro x hx
      obtain ⟨M, m1, m2⟩ := k4
      rw [m2]
      exact List.mem_append_left _ (m1.mem_iff.2 hx)
    refine ⟨L', A', k3, ?_, ?_⟩
    · intro j x hj
      constructor
      · intro hf
        rcases k5.back j hf with ⟨i, g, e1, e2, e3, e4⟩ | ⟨i, l, e1, e2, rfl⟩
        · obtain rfl : g = x := by rw [hj] at e3; exact (Option.some.inj e3).symm
          left
          exact ⟨(hS.flag i g e1).1 e4, mem_survivors.2 ⟨i, e1, e2⟩⟩
        · right
          have := (k5.add i l e1 e2).1
          rw [hj] at this
          obtain rfl := Option.some.inj this
          rw [← e2]
          exact List.mem_of_getElem? e1
      · rintro (⟨h1, h2⟩ | h1)
        · obtain ⟨i, e1, e2⟩ := mem_survivors.1 h2
          exact k5.flag i j x e1 e2 hj ((hS.flag i x e1).2 h1)
        · obtain ⟨i, hi⟩ := List.mem_iff_getElem?.1 h1
          obtain ⟨g1, g2, -⟩ := k5.add i _ hi rfl
          obtain rfl := get_inj k3.nodup hj g1
          exact g2
    · rintro x (⟨h1, h2⟩ | h1)
      · exact hsurv x h2
      · obtain ⟨i, hi⟩ := List.mem_iff_getElem?.1 h1
        exact List.mem_of_getElem? (k5.add i _ hi rfl).1
  | @verify F st p p' L proof hs Q _ hrep hver hnc ih =>
    obtain ⟨L0, A, hI⟩ := ih
    obtain rfl := hrep.unique hI.sync.rep
    rcases verify_ok hI.sync.inv hI.sync.len proof hs with ⟨e, -⟩ | ⟨e, -, h0⟩ | ⟨e, -⟩ | ⟨s', e, -⟩ | ⟨s', A1, e, -, ha, -⟩ <;> rw [e] at hver
    · simp at hver
    · obtain rfl : p = p' := by simpa using hver
      subst h0
      exact ⟨L, A, by simpa using hI⟩
    · simp at hver
    · simp at hver
    · obtain rfl : s' = p' := by simpa using hver
      have nc : ¬ Coll s'.ext A1 L.length (leafFn HashOps.zero L) := by rw [coll_iff ha.ph hI.sync.len]; exact hnc
      exact ⟨L, A1, (hI.accepted ha nc).1⟩
  | @refused F st p p' L proof hs new Q _ hrep hver hnew ih =>
    obtain ⟨L0, A, hI⟩ := ih
    obtain rfl := hrep.unique hI.sync.rep
    exact ⟨L, A, (hI.refused hver hnew).1⟩
  | @prune F st p p' Q _ hp ih =>
    obtain ⟨L, A, hI⟩ := ih
    obtain ⟨s', e, h1, h2, -⟩ := pruneAll_ok hI.sync.inv hI.sync.len
    rw [e] at hp
    obtain rfl := Except.ok.inj hp
    have h3 := (h1.ph.numCached_flag hI.sync.len).1 h2
    exact ⟨L, _, ⟨hI.sync.run, hI.sync.rep, hI.sync.len, h1⟩, fun i h hx => iff_of_false (h3 i (leafFn_get.1 hx).1) (fun h => h), fun _ h => h.elim⟩
  | @rejected F st p p' leaves targets b Q _ hns hm ih =>
    rw [modify_insane _ _ _ hns] at hm
    obtain ⟨-, rfl⟩ : false = b ∧ p = p' := by simpa using hm
    exact ih
  | @reopen F F' st st' p Q _ ho hp hb ih =>
    obtain ⟨L, A, hI⟩ := ih
    have hrun := Ram.Run.reopen hI.sync.run ho hp hb
    obtain ⟨n, f, h1, h2, -⟩ := hI.sync.run.inv
    obtain ⟨s', k1, k2, k3⟩ := Ram.reopen_ok h1 h2
    rw [k1] at ho
    obtain rfl := Except.ok.inj ho
    have e := hI.sync.rep.unique (h1.represents h2)
    refine ⟨L, A, ⟨hrun, ?_, hI.sync.len, hI.sync.inv⟩, hI.flag, hI.sub⟩
    rw [e]
    exact k2.represents h2
  | @copied F st p p' leaves Q _ hk hm ih =>
    obtain ⟨L, A, hI⟩ := ih
    obtain ⟨g1, g2⟩ := hI.sync.copied hk hm
    refine ⟨L, A, g1, fun i x hx => ?_, hI.sub⟩
    rw [← hI.flag i x hx]
    unfold Flag
    rw [g2]

/-- A block whose deletions are verified just before. -/
theorem _root_.Utreexo.Held.block {F F' : RamForest H} {st : List (UndoBatch H × RamForest H)} {u : UndoBatch H} {p p1 p2 : Pollard H}
    {L : List H} {proof : BatchProof H} {hs : List H} {leaves leaves' : List (Leaf H)} {Q : H → Prop}
    (h : Held F st p Q) (hrep : Ram.Represents F L) (hv : Ram.Valid L (leaves.map Prod.fst) proof.sorted)
    (hsrt : proof.targets = [] → proof.sorted = []) (hl : leaves'.map Prod.fst = leaves.map Prod.fst)
    (hver : Pol.verify p proof hs = .ok (true, p1)) (hnc : ¬ Collision p1 L)
    (hm1 : Ram.modify F leaves proof.sorted = .ok (true, some u, F')) (hm2 : modify p1 leaves' proof.sorted = .ok (true, p2)) :
    Held F' ((u, F) :: st) p2 (fun h => (Q h ∧ h ∈ survivors L proof.sorted) ∨ (h, true) ∈ leaves') := by
  obtain ⟨L0, A, hI⟩ := h.inv
  obtain rfl := hrep.unique hI.sync.rep
  obtain ⟨h1, h2, hmem⟩ := hI.sync.deletable hsrt hver hnc
  have hT := Held.later (h.verify hrep hver hnc) h.sync hrep h1 hv hl h2 hm1 hm2
  have e1 : (fun h => ((Q h ∨ h ∈ hs) ∧ h ∈ survivors L proof.sorted) ∨ (h, true) ∈ leaves') =
      fun h => (Q h ∧ h ∈ survivors L proof.sorted) ∨ (h, true) ∈ leaves' := by
    funext x
    apply propext
    refine or_congr_left ⟨fun ⟨a, b⟩ => ⟨a.resolve_right (fun hc => ?_), b⟩, fun ⟨a, b⟩ => ⟨.inl a, b⟩⟩
    obtain ⟨i, e, hiD⟩ := mem_survivors.1 b
    obtain ⟨t, ht, e2⟩ := (hmem x).1 hc
    obtain rfl := get_inj hI.sync.nodup e e2
    exact hiD ht
  rw [e1] at hT
  exact hT

/-- The number of flags of a set of leaves. -/
theorem HInv.count {F : RamForest H} {st : List (UndoBatch H × RamForest H)} {p : Pollard H} {L : List H} {A : Addr} {Q : H → Prop}
    (h : HInv F st p L A Q) (S : List H) (hnd : S.Nodup) (hS : ∀ x, x ∈ S ↔ Q x) : numCachedLeaves p = S.length := by
  rw [h.sync.inv.ph.numCached_ok h.sync.len, List.countP_eq_length_filter]
  have hp : (((List.range L.length).filter (kidc p.ext (rtOf L.length) A 0)).map (leafFn HashOps.zero L)).Perm S := by
    rw [List.perm_ext_iff_of_nodup]
    · intro x
      rw [hS]
      simp only [List.mem_map, List.mem_filter, List.mem_range]
      constructor
      · rintro ⟨i, ⟨hi, hf⟩, rfl⟩
        exact (h.flag i _ (leafFn_get.2 ⟨hi, rfl⟩)).1 hf
      · intro hx
        obtain ⟨i, hi⟩ := List.mem_iff_getElem?.1 (h.sub x hx)
        exact ⟨i, ⟨(leafFn_get.1 hi).1, (h.flag i x hi).2 hx⟩, (leafFn_get.1 hi).2⟩
    · refine List.Nodup.map_on ?_ (List.nodup_range.filter _)
      intro a ha b hb e
      have ha' := List.mem_range.1 (List.mem_filter.1 ha).1
      have hb' := List.mem_range.1 (List.mem_filter.1 hb).1
      exact get_inj h.sync.nodup (leafFn_get.2 ⟨ha', e⟩) (leafFn_get.2 ⟨hb', rfl⟩)
    · exact hnd
  have := hp.length_eq
  rwa [List.length_map] at this

end Pol

/-- C42: `NumCachedLeaves` is the number of leaves the pollard was told to remember and that were not
deleted since. -/
theorem C42_held (F : RamForest H) (st : List (UndoBatch H × RamForest H)) (p : Pollard H) (Q : H → Prop) (h : Held F st p Q)
    (S : List H) (hnd : S.Nodup) (hS : ∀ x, x ∈ S ↔ Q x) : numCachedLeaves p = S.length := by
  obtain ⟨L, A, hI⟩ := h.inv
  exact hI.count S hnd hS

/-- C42: a rejected proof may make the pollard remember targets that have no neighbour or one that can be read; a leaf that can itself be
read is among them only if the proof came with its hash. -/
theorem C42_refused (F : RamForest H) (st : List (UndoBatch H × RamForest H)) (p p' : Pollard H) (Q : H → Prop) (h : Held F st p Q)
    (L : List H) (hL : Ram.Represents F L) (proof : BatchProof H) (hs : List H) (hv : verify p proof hs = .ok (false, p')) :
    ∃ Q' : H → Prop, Held F st p' Q' ∧ (∀ x, Q x → Q' x) ∧ ∀ x, Q' x → ¬ Q x →
      (∀ g, beside L x = some g → Pol.read p (L.idxOf g) = .ok (some g)) ∧
      ∃ i t : ℕ, proof.sorted[i]? = some t ∧ L[t]? = some x ∧ (Pol.read p t = .ok (some x) → hs[i]? = some x) := by
  classical
  obtain ⟨L0, A, hI⟩ := h.inv
  obtain rfl := hL.unique hI.sync.rep
  have hnew : ∀ x ∈ L, decide (¬ Q x ∧ ∀ g, beside L x = some g → Pol.read p (L.idxOf g) = .ok (some g)) = true ↔
      ¬ Q x ∧ ∀ g, beside L x = some g → Pol.read p (L.idxOf g) = .ok (some g) := fun x _ => by rw [decide_eq_true_eq]
  obtain ⟨k1, k2⟩ := hI.refused hv hnew
  refine ⟨_, Held.refused h hL hv hnew, fun x hx => .inl hx, ?_⟩
  intro x hx hq
  obtain ⟨t, ht⟩ := List.mem_iff_getElem?.1 (k1.sub x hx)
  have f1 := (k1.flag t x ht).2 hx
  have f2 : ¬ Flag p.ext (rtOf L.length) A t := fun hf => hq ((hI.flag t x ht).1 hf)
  obtain ⟨g1, i, g2, g3⟩ := k2 t x ht f1 f2
  refine ⟨(hI.sync.near ht).1 g1, i, t, g2, ht, fun hr => g3 ?_⟩
  have h1 := hI.sync.inv.read_at hI.sync.len (r := 0) (i := t) (by simpa using (List.getElem?_eq_some_iff.1 ht).1)
  have h2 : at' L 0 t = t := by unfold at'; exact posOf_zero _ _
  rw [h2, hr] at h1
  cases hA : A 0 t with
  | none => rw [hA] at h1; simp at h1
  | some a => rfl

namespace Pol

theorem held_all : ∀ (bs : List (Block H)) (S L : List H) (F : RamForest H) (st : List (UndoBatch H × RamForest H)) (p : Pollard H)
    (Q : List H), Held F st p (fun x => x ∈ Q) → Q.Nodup → Ram.Represents F L → L.Perm S → ValidBlocks S bs →
    ∃ F' st' p' L', play bs F p = .ok (F', p') ∧ Held F' st' p' (fun x => x ∈ bs.foldl knownAfter Q) ∧ (bs.foldl knownAfter Q).Nodup ∧
      Ram.Represents F' L' ∧ L'.Perm (bs.foldl after S) := by
  intro bs
  induction bs with
  | nil => intro S L F st p Q h hQ hL hS _; exact ⟨F, st, p, L, rfl, h, hQ, hL, hS⟩
  | cons b bs ih =>
    rintro S L F st p Q h hQ hL hS ⟨h1, h2, h3, h4, h5, h6, h7⟩
    obtain ⟨F1, u, p1, L1, e1, -, e3, e4, proof, hs, p2, ha⟩ := play_step h.sync hL hS h1 h2 h3 h4 h5 h6
    have hT := Held.block h hL ha.valid ha.nil (by simp [Function.comp_def]) ha.ver ha.coll ha.forest ha.pollard
    obtain ⟨L0, A, hI⟩ := h.inv
    obtain rfl := hL.unique hI.sync.rep
    have hQ1 : (knownAfter Q b).Nodup := by
      unfold knownAfter
      rw [List.nodup_append]
      refine ⟨hQ.filter _, ?_, ?_⟩
      · exact h3.sublist (List.filter_sublist.map _)
      · intro x hx y hy e
        subst e
        obtain ⟨g1, g2⟩ := List.mem_filter.1 hx
        obtain ⟨a, g3, rfl⟩ := List.mem_map.1 hy
        have := h4 a.1 (List.mem_map_of_mem (List.mem_filter.1 g3).1) (hS.mem_iff.1 (hI.sub _ g1))
        simp [this] at g2
    have hT' : Held F1 ((u, F) :: st) p1 (fun x => x ∈ knownAfter Q b) := by
      have e : (fun x => (x ∈ Q ∧ x ∈ survivors L proof.sorted) ∨ (x, true) ∈ b.adds.map fun a => (a.1, a.2.2)) =
          fun x => x ∈ knownAfter Q b := by
        funext x
        apply propext
        unfold knownAfter
        rw [List.mem_append, List.mem_filter, ha.surv, List.mem_filter]
        apply or_congr
        · exact ⟨fun hh => ⟨hh.1, hh.2.2⟩, fun hh => ⟨hh.1, hI.sub x hh.1, hh.2⟩⟩
        · simp only [List.mem_map, List.mem_filter, Prod.mk.injEq]
          constructor
          · rintro ⟨a, w1, w2, w3⟩; exact ⟨a, ⟨w1, w3⟩, w2⟩
          · rintro ⟨a, ⟨w1, w3⟩, w2⟩; exact ⟨a, w1, w2, w3⟩
      rw [← e]; exact hT
    obtain ⟨F', st', p', L', g1, g2, g3, g4, g5⟩ := ih _ _ _ _ _ _ hT' hQ1 e3 e4 h7
    refine ⟨F', st', p', L', ?_, g2, g3, g4, g5⟩
    rw [play, e1, ok_bind]; exact g1

end Pol

/-- C42: after every history of valid blocks the pollard counts exactly the unspent leaves that were added with
its remember flag, and its memory is bounded by their number. -/
theorem C42_history (bs : List (Block H)) (hv : ValidBlocks [] bs) (R : ℕ) (hR : (bs.foldl after []).length < 2 ^ (R + 1)) :
    ∃ F p rs, play bs (Ram.mk 0) (mk 0) = .ok (F, p) ∧ numCachedLeaves p = (bs.foldl knownAfter []).length ∧
      Ram.roots F = .ok rs ∧ countNodes p ≤ rs.length + 2 * R * (bs.foldl knownAfter []).length := by
  obtain ⟨F, st, p, L, e1, e2, e3, e4, e5⟩ := held_all bs [] [] _ _ _ [] (by simpa using Held.empty (H := H)) List.nodup_nil
    (Ram.mk_inv.represents (f := leafFn HashOps.zero []) (by omega)) (List.Perm.refl _) hv
  have hc := C42_held F st p _ e2 _ e3 (fun x => Iff.rfl)
  obtain ⟨r1, rs, r2, r3⟩ := C23_agree F st p e2.sync
  obtain ⟨rs', s1, -, s3⟩ := C41_memory F st p e2.sync R (by
    rw [r1, e4.count, e5.length_eq]; exact hR)
  rw [r3] at s1
  obtain rfl := Except.ok.inj s1
  rw [hc] at s3
  exact ⟨F, p, rs, e1, hc, r2, s3⟩

/-! ## Concrete cases -/

section Examples

attribute [local instance] toyOps

/-- `toyBlocks` meets the hypotheses of `C42_history`. -/
example : ValidBlocks [] toyBlocks ∧ ((toyBlocks.take 1).foldl after []).length < 2 ^ (2 + 1) := by
  refine ⟨⟨by decide, by decide, by decide, by decide, by decide, by decide,
    by decide, by decide, by decide, by decide, by decide, by decide,
    by decide, by decide, by decide, by decide, by decide, by decide, trivial⟩, by decide⟩

/-- Seven leaves, of which 11 and 15 are remembered: three roots and five more nodes. -/
example : toyAfter (toyBlocks.take 1) (fun _ p => do
      return (p.numLeaves, (← Pol.roots p).length, numCachedLeaves p, countNodes p)) = .ok (7, 3, 2, 8) ∧
    (toyBlocks.take 1).foldl knownAfter [] = [11, 15] := by decide +kernel

/-- With every leaf remembered all nodes are held: seven leaves, three nodes in row 1, one in row 2. -/
example : toyAfter (keepAll (toyBlocks.take 1)) (fun _ p => do
      return (p.numLeaves, (← Pol.roots p).length, numCachedLeaves p, countNodes p)) = .ok (7, 3, 7, 11) := by decide +kernel

/-- `C42_refused`: of four leaves 11 is remembered and 12 can be read. A rejected proof of 12 and 13 makes the pollard remember 12 if it
comes with the hash 12, and nothing if it comes with another hash for it. -/
example : toyAfter [{ adds := [(11, false, true), (12, false, false), (13, false, false), (14, false, false)], dels := [] }] (fun _ p => do
      let (b, p1) ← verify p { targets := [1, 2], sorted := [1, 2], hashes := [11, 14] } [12, 99]
      let (c, p2) ← verify p { targets := [1, 2], sorted := [1, 2], hashes := [11, 14] } [99, 13]
      return [(b, numCachedLeaves p1), (c, numCachedLeaves p2)]) = .ok [(false, 2), (false, 1)] := by decide +kernel

end Examples

end Utreexo
