import Verif.Props.Checks
import Verif.Proof.PolMiss

/-!
# Verifying first, deleting later

C52: leaves may be verified in several calls, with rejected proofs in between, and then deleted together; and a pollard that
remembers every leaf needs no proofs. C53: a pollard that deletes leaves it has not verified.
-/

set_option linter.unusedSectionVars false

namespace Utreexo
open Spec Equiv

variable {H : Type} [DecidableEq H] [HashOps H]

open Pol

/-! ## C52: deleting what has been verified since the last block -/

/-- C52: after any number of calls of `Verify` with arbitrary arguments, `Modify` succeeds for all sane targets that are leaves of
accepted calls, and the pollard follows the forest. -/
theorem C52_modify (F : RamForest H) (st : List (UndoBatch H × RamForest H)) (p p1 : Pollard H) (h : Sync F st p) (L : List H)
    (hL : Ram.Represents F L) (V : H → Prop) (hV : Verifies L p V p1) (leaves leaves' : List (Leaf H)) (D : List ℕ)
    (hv : Ram.Valid L (leaves.map Prod.fst) D) (hl : leaves'.map Prod.fst = leaves.map Prod.fst)
    (hd : ∀ t ∈ D, ∃ x, L[t]? = some x ∧ V x) :
    ∃ u F' p2 rs, Ram.modify F leaves D = .ok (true, some u, F') ∧ Pol.modify p1 leaves' D = .ok (true, p2) ∧
      Sync F' ((u, F) :: st) p2 ∧ Ram.roots F' = .ok rs ∧ Pol.roots p2 = .ok rs ∧ p2.numLeaves = F'.numLeaves := by
  obtain ⟨L0, A, hI⟩ := h.inv
  obtain rfl := hL.unique hI.rep
  obtain ⟨A1, hS, -⟩ := hI.verifies hV
  obtain ⟨u, F', p2, L', A', k1, k2, k3, -⟩ := block_step hS hv hl (fun _ => hI.ready hV hS hv.bound (.inl fun t ht => .inl (hd t ht)))
  have hs : Sync F' ((u, F) :: st) p2 := .later h hL hV hv hl (.inl fun t ht => .inl (hd t ht)) k1 k2
  obtain ⟨r1, rs, r2, r3⟩ := C23_agree _ _ _ hs
  exact ⟨u, F', p2, rs, k1, k2, hs, r2, r3, r1⟩

/-- Verify, one after the other, the forest's proofs of the given lists of leaves; `none` if one is not accepted. -/
def verifyEach (F : RamForest H) : List (List H) → Pollard H → Res (Option (Pollard H))
  | [], p => pure (some p)
  | hs :: rest, p => do
    match ← Acc.prove Ram.vt F hs with
    | none => pure none
    | some proof =>
      let (b, p') ← Pol.verify p proof hs
      if b then verifyEach F rest p' else pure none

/-- C52: the forest's proofs of any lists of leaves, in the order of their positions, are accepted one after the other, and then
all these leaves, or any of them, can be deleted in one block. -/
theorem C52_split (F : RamForest H) (st : List (UndoBatch H × RamForest H)) (p : Pollard H) (h : Sync F st p) (L : List H)
    (hL : Ram.Represents F L) (chunks : List (List H × List ℕ))
    (hc : ∀ c ∈ chunks, c.2.Pairwise (· < ·) ∧ c.1.map some = c.2.map fun t => L[t]?) :
    ∃ p1, verifyEach F (chunks.map Prod.fst) p = .ok (some p1) ∧ Sync F st p1 ∧
      ∀ (leaves leaves' : List (Leaf H)) (D : List ℕ), Ram.Valid L (leaves.map Prod.fst) D →
        leaves'.map Prod.fst = leaves.map Prod.fst → (∀ t ∈ D, ∃ c ∈ chunks, t ∈ c.2) →
        ∃ u F' p2 rs, Ram.modify F leaves D = .ok (true, some u, F') ∧ Pol.modify p1 leaves' D = .ok (true, p2) ∧
          Sync F' ((u, F) :: st) p2 ∧ Ram.roots F' = .ok rs ∧ Pol.roots p2 = .ok rs ∧ p2.numLeaves = F'.numLeaves := by
  have key : ∀ (cs : List (List H × List ℕ)) (q : Pollard H) (V : H → Prop), Sync F st q → Verifies L p V q →
      (∀ c ∈ cs, c.2.Pairwise (· < ·) ∧ c.1.map some = c.2.map fun t => L[t]?) →
      ∃ p1 V1, verifyEach F (cs.map Prod.fst) q = .ok (some p1) ∧ Sync F st p1 ∧ Verifies L p V1 p1 ∧ (∀ x, V x → V1 x) ∧
        ∀ c ∈ cs, ∀ x ∈ c.1, V1 x := by
    intro cs
    induction cs with
    | nil => intro q V hq hV _; exact ⟨q, V, rfl, hq, hV, fun _ => id, by simp⟩
    | cons c cs ih =>
      intro q V hq hV hc
      obtain ⟨c1, c2⟩ := hc c List.mem_cons_self
      obtain ⟨proof, p', e1, e2, e3, -⟩ := C24_positions F st q hq L hL c.2 c1 c.1 c2
      obtain ⟨p'', e3', e4, e5⟩ := C24_complete F st q hq L hL c.1 proof e1 c.1 (by rw [e2]; exact c2)
      rw [e3] at e3'
      obtain rfl : p' = p'' := by simpa using e3'
      obtain ⟨p1, V1, k1, k2, k3, k4, k5⟩ := ih p' _ e5 (.next hV e3 (fun _ => e4)) (fun c h => hc c (List.mem_cons_of_mem _ h))
      refine ⟨p1, V1, ?_, k2, k3, fun x hx => k4 x (.inl hx), ?_⟩
      · simp only [List.map_cons, verifyEach, e1, ok_bind, e3, if_true]
        exact k1
      · intro d hd x hx
        rcases List.mem_cons.1 hd with rfl | hd
        · exact k4 x (.inr ⟨rfl, hx⟩)
        · exact k5 d hd x hx
  obtain ⟨p1, V1, k1, k2, k3, -, k5⟩ := key chunks p _ h .none hc
  refine ⟨p1, k1, k2, fun leaves leaves' D hv hl hD => C52_modify F st p p1 h L hL V1 k3 leaves leaves' D hv hl ?_⟩
  intro t ht
  obtain ⟨c, hcc, htc⟩ := hD t ht
  have := (hc c hcc).2
  have hm : L[t]? ∈ c.1.map some := by rw [this]; exact List.mem_map_of_mem htc
  obtain ⟨x, hx, e⟩ := List.mem_map.1 hm
  exact ⟨x, e.symm, k5 c hcc x hx⟩

/-! ## C52: a pollard that remembers every leaf -/

/-- C52: a pollard that remembers every leaf applies every valid block without any proof. -/
theorem C52_all (F : RamForest H) (st : List (UndoBatch H × RamForest H)) (p : Pollard H) (h : Sync F st p)
    (hall : numCachedLeaves p = p.numLeaves) (L : List H) (hL : Ram.Represents F L) (leaves leaves' : List (Leaf H)) (D : List ℕ)
    (hv : Ram.Valid L (leaves.map Prod.fst) D) (hl : leaves'.map Prod.fst = leaves.map Prod.fst) :
    ∃ u F' p2 rs, Ram.modify F leaves D = .ok (true, some u, F') ∧ Pol.modify p leaves' D = .ok (true, p2) ∧
      Sync F' ((u, F) :: st) p2 ∧ Ram.roots F' = .ok rs ∧ Pol.roots p2 = .ok rs ∧ p2.numLeaves = F'.numLeaves := by
  obtain ⟨L0, A, hI⟩ := h.inv
  obtain rfl := hL.unique hI.rep
  obtain ⟨u, F', p2, L', A', k1, k2, k3, -⟩ := block_step hI hv hl (fun _ => hI.ready .none hI hv.bound (.inr hall))
  have hs : Sync F' ((u, F) :: st) p2 := .later h hL .none hv hl (.inr hall) k1 k2
  obtain ⟨r1, rs, r2, r3⟩ := C23_agree _ _ _ hs
  exact ⟨u, F', p2, rs, k1, k2, hs, r2, r3, r1⟩

/-- A forest and a pollard that is told to remember every leaf and never verifies anything. -/
inductive Archive : RamForest H → List (UndoBatch H × RamForest H) → Pollard H → Prop
  | empty : Archive (Ram.mk 0) [] (Pol.mk 0)
  | block {F F' : RamForest H} {st : List (UndoBatch H × RamForest H)} {u : UndoBatch H} {p p' : Pollard H} {L : List H}
      {leaves : List (Leaf H)} {D : List ℕ} : Archive F st p → Ram.Represents F L → Ram.Valid L (leaves.map Prod.fst) D →
      Ram.modify F leaves D = .ok (true, some u, F') → Pol.modify p (leaves.map fun l => (l.1, true)) D = .ok (true, p') →
      Archive F' ((u, F) :: st) p'

theorem Archive.held {F : RamForest H} {st : List (UndoBatch H × RamForest H)} {p : Pollard H} (h : Archive F st p) :
    ∃ L, Ram.Represents F L ∧ L.Nodup ∧ Held F st p (fun x => x ∈ L) := by
  have fin : ∀ {F : RamForest H} {st : List (UndoBatch H × RamForest H)} {p : Pollard H} {Q : H → Prop} {L : List H},
      Held F st p Q → Ram.Represents F L → (∀ x, Q x ↔ x ∈ L) → L.Nodup ∧ Held F st p (fun x => x ∈ L) := by
    intro F st p Q L hh hL hQ
    obtain ⟨L0, A, hI⟩ := hh.inv
    obtain rfl := hL.unique hI.sync.rep
    refine ⟨hI.sync.nodup, ?_⟩
    have : Q = fun x => x ∈ L := by funext x; exact propext (hQ x)
    rw [← this]; exact hh
  induction h with
  | empty => exact ⟨[], Ram.mk_inv.represents (f := leafFn HashOps.zero []) (by omega), List.nodup_nil, by simpa using Held.empty (H := H)⟩
  | @block F F' st u p p' L leaves D _ hL hv h1 h2 ih =>
    obtain ⟨L0, hL0, hnd, hh⟩ := ih
    obtain rfl := hL.unique hL0
    have hnum : p.numLeaves = L.length := by rw [(C23_agree _ _ _ hh.sync).1, hL.count]
    have hall : numCachedLeaves p = p.numLeaves := by rw [C42_held F st p _ hh L hnd (fun _ => Iff.rfl), hnum]
    have hl : (leaves.map fun l => (l.1, true)).map Prod.fst = leaves.map Prod.fst := by rw [List.map_map]; rfl
    have hH := Held.later hh hh.sync hL .none hv hl (.inr hall) h1 h2
    obtain ⟨L', hL', K, hK, rfl⟩ : ∃ L', Ram.Represents F' L' ∧ Modified L (leaves.map Prod.fst) D L' := by
      obtain ⟨L1, A, hI⟩ := hh.inv
      obtain ⟨u', s', L', g1, -, g3, g4⟩ := C18_modify F st hI.sync.run L hL leaves D hv
      rw [g1] at h1
      obtain ⟨-, rfl⟩ : u' = u ∧ s' = F' := by simpa using h1
      exact ⟨L', g3, g4⟩
    refine ⟨_, hL', fin hH hL' ?_⟩
    intro x
    rw [List.mem_append]
    refine or_congr ?_ ?_
    · rw [hK.mem_iff]
      refine ⟨fun h => h.2, fun h => ⟨?_, h⟩⟩
      obtain ⟨i, e, -⟩ := mem_survivors.1 h
      exact List.mem_of_getElem? e
    · simp only [List.mem_map, Prod.mk.injEq, and_true]

/-- C52: such a pollard agrees with the forest for ever, remembers every leaf, and applies every valid block. -/
theorem C52_archive (F : RamForest H) (st : List (UndoBatch H × RamForest H)) (p : Pollard H) (h : Archive F st p) :
    numCachedLeaves p = F.numLeaves ∧ p.numLeaves = F.numLeaves ∧ (∃ rs, Ram.roots F = .ok rs ∧ Pol.roots p = .ok rs) ∧
      ∀ (L : List H) (leaves : List (Leaf H)) (D : List ℕ), Ram.Represents F L → Ram.Valid L (leaves.map Prod.fst) D →
        ∃ u F' p', Ram.modify F leaves D = .ok (true, some u, F') ∧ Pol.modify p (leaves.map fun l => (l.1, true)) D = .ok (true, p') ∧
          Archive F' ((u, F) :: st) p' := by
  obtain ⟨L, hL, hnd, hh⟩ := h.held
  obtain ⟨r1, r2⟩ := C23_agree _ _ _ hh.sync
  have hn : numCachedLeaves p = F.numLeaves := by rw [C42_held F st p _ hh L hnd (fun _ => Iff.rfl), hL.count]
  refine ⟨hn, r1, r2, fun L0 leaves D hL0 hv => ?_⟩
  obtain ⟨u, F', p', -, k1, k2, -⟩ := C52_all F st p hh.sync (by rw [hn, r1]) L0 hL0 leaves (leaves.map fun l => (l.1, true)) D hv
    (by rw [List.map_map]; rfl)
  exact ⟨u, F', p', k1, k2, .block h hL0 hv k1 k2⟩

/-! ## C53: deleting leaves that were not verified -/

/-- C53, as far as it holds: `Modify` follows the forest when for every target it was verified since the last block or the pollard
has the nodes, or every leaf is remembered. Missing: other targets, for which the claim is false (`C53_wrong_roots`, `C53_crash`). -/
theorem C53_modify_partial (F : RamForest H) (st : List (UndoBatch H × RamForest H)) (p p1 : Pollard H) (h : Sync F st p) (L : List H)
    (hL : Ram.Represents F L) (V : H → Prop) (hV : Verifies L p V p1) (leaves leaves' : List (Leaf H)) (D : List ℕ)
    (hv : Ram.Valid L (leaves.map Prod.fst) D) (hl : leaves'.map Prod.fst = leaves.map Prod.fst) (hd : Deletable L V p1 D) :
    ∃ u F' p2, Ram.modify F leaves D = .ok (true, some u, F') ∧ Pol.modify p1 leaves' D = .ok (true, p2) ∧
      Sync F' ((u, F) :: st) p2 := by
  obtain ⟨L0, A, hI⟩ := h.inv
  obtain rfl := hL.unique hI.rep
  obtain ⟨A1, hS, -⟩ := hI.verifies hV
  obtain ⟨u, F', p2, L', A', k1, k2, k3, -⟩ := block_step hS hv hl (fun _ => hI.ready hV hS hv.bound hd)
  exact ⟨u, F', p2, k1, k2, .later h hL hV hv hl hd k1 k2⟩

/-- C53, as far as it holds: `Modify` follows the forest without any call of `Verify`, whether the targets are remembered or not,
when `Read` finds both children of every node above a target. Missing: other targets, for which the claim is false
(`C53_wrong_roots`, `C53_crash`). -/
theorem C53_known_partial (F : RamForest H) (st : List (UndoBatch H × RamForest H)) (p : Pollard H) (h : Sync F st p) (L : List H)
    (hL : Ram.Represents F L) (leaves leaves' : List (Leaf H)) (D : List ℕ)
    (hv : Ram.Valid L (leaves.map Prod.fst) D) (hl : leaves'.map Prod.fst = leaves.map Prod.fst)
    (hk : ∀ t ∈ D, ∀ r k, InForest L.length (r + 1) (k / 2) → t / 2 ^ (r + 1) = k / 2 → Pol.read p (Pol.at' L r k) ≠ .ok none) :
    ∃ u F' p' rs, Ram.modify F leaves D = .ok (true, some u, F') ∧ Pol.modify p leaves' D = .ok (true, p') ∧
      Sync F' ((u, F) :: st) p' ∧ Ram.roots F' = .ok rs ∧ Pol.roots p' = .ok rs ∧ p'.numLeaves = F'.numLeaves := by
  obtain ⟨u, F', p', k1, k2, k3⟩ := C53_modify_partial F st p p h L hL _ .none leaves leaves' D hv hl (.inl fun t ht => .inr (hk t ht))
  obtain ⟨r1, rs, r2, r3⟩ := C23_agree _ _ _ k3
  exact ⟨u, F', p', rs, k1, k2, k3, r2, r3, r1⟩

/-- The pollard has the nodes for the leaves that it verified. -/
theorem Pol.SyncInv.knows {F : RamForest H} {st : List (UndoBatch H × RamForest H)} {p : Pollard H} {L : List H} {A : Addr}
    (h : SyncInv F st p L A) {t : ℕ} (hP : PresAll L.length A [t]) : Known L p t := by
  intro r k hin e
  have hin' : k / 2 < L.length / 2 ^ (r + 1) := Nat.lt_of_succ_le ((Nat.le_div_iff_mul_le (Nat.two_pow_pos _)).2 hin)
  obtain ⟨a, ha⟩ := Option.isSome_iff_exists.1 (pres_row hP (Nat.zero_le r) (by simp) e.symm hin').1
  rw [h.inv.read_at h.len (kid_in hin' rfl), ha]
  simp

/-- C53, as far as it holds: a leaf whose sibling was verified since the last block can be deleted without a proof of its own.
Missing: as before. -/
theorem C53_sibling_partial (F : RamForest H) (st : List (UndoBatch H × RamForest H)) (p p1 : Pollard H) (h : Sync F st p) (L : List H)
    (hL : Ram.Represents F L) (V : H → Prop) (hV : Verifies L p V p1) (leaves leaves' : List (Leaf H)) (D : List ℕ)
    (hv : Ram.Valid L (leaves.map Prod.fst) D) (hl : leaves'.map Prod.fst = leaves.map Prod.fst)
    (hd : ∀ t ∈ D, ∃ s x, s / 2 = t / 2 ∧ L[s]? = some x ∧ V x) :
    ∃ u F' p2 rs, Ram.modify F leaves D = .ok (true, some u, F') ∧ Pol.modify p1 leaves' D = .ok (true, p2) ∧
      Sync F' ((u, F) :: st) p2 ∧ Ram.roots F' = .ok rs ∧ Pol.roots p2 = .ok rs ∧ p2.numLeaves = F'.numLeaves := by
  obtain ⟨L0, A, hI⟩ := h.inv
  obtain rfl := hL.unique hI.rep
  obtain ⟨A1, hS, hR⟩ := hI.verifies hV
  have hnd : L.Nodup := by
    obtain ⟨L1, q1, q2, -⟩ := C16_represents F st hI.run
    obtain rfl := hI.rep.unique q1
    exact q2
  obtain ⟨u, F', p2, k1, k2, k3⟩ := C53_modify_partial F st p p1 h L hL V hV leaves leaves' D hv hl (.inl fun t ht => by
    right
    obtain ⟨s, x, e1, e2, e3⟩ := hd t ht
    obtain ⟨s', e4, e5⟩ := hR x e3
    obtain ⟨b1, c1⟩ := List.getElem?_eq_some_iff.1 e2
    obtain ⟨b2, c2⟩ := List.getElem?_eq_some_iff.1 e4
    obtain rfl := (List.Nodup.getElem_inj_iff hnd).1 (c1.trans c2.symm)
    intro r k hin e
    refine hS.knows e5.pres r k hin ?_
    rw [← e, Nat.pow_succ', ← Nat.div_div_eq_div_mul, ← Nat.div_div_eq_div_mul, e1])
  obtain ⟨r1, rs, r2, r3⟩ := C23_agree _ _ _ k3
  exact ⟨u, F', p2, rs, k1, k2, k3, r2, r3, r1⟩

/-- A block whose deletions were not verified, if the pollard carries them out as the forest does. -/
theorem Pol.HInv.removed {F : RamForest H} {st : List (UndoBatch H × RamForest H)} {p : Pollard H} {L : List H} {A : Addr}
    {Q : H → Prop} (h : HInv F st p L A Q) {D : List ℕ} {leaves leaves' : List (Leaf H)} (hv : Ram.Valid L (leaves.map Prod.fst) D)
    (hl : leaves'.map Prod.fst = leaves.map Prod.fst) (rem : ∃ (p1 : Pollard H) (A1 : Addr), Acc.remove vt p D = .ok (true, p1) ∧
      Inv p1 (L.length - D.length) (leafFn HashOps.zero L ∘ (sg L.length (L.length - D.length) D (St.numRows L.length) 0).symm) A1 ∧
      ∀ x, sg L.length (L.length - D.length) D (St.numRows L.length) 0 x < L.length - D.length →
        (Flag p1.ext (rtOf (L.length - D.length)) A1 (sg L.length (L.length - D.length) D (St.numRows L.length) 0 x) ↔
          Flag p.ext (rtOf L.length) A x)) :
    ∃ u F' p' L' A', Ram.modify F leaves D = .ok (true, some u, F') ∧ Pol.modify p leaves' D = .ok (true, p') ∧
      Modified L (leaves.map Prod.fst) D L' ∧
      HInv F' ((u, F) :: st) p' L' A' (fun x => (Q x ∧ x ∈ survivors L D) ∨ (x, true) ∈ leaves') := by
  have hnd := h.sync.nodup
  obtain ⟨n, f, h1, h2, h3⟩ := h.sync.run.inv
  have e := h.sync.rep.unique (h1.represents h2)
  have hlen : L.length = n := by rw [e]; simp
  have hb : ∀ x ∈ D, x < n := fun x hx => by rw [← hlen]; exact hv.bound x hx
  have hDn : D.length ≤ n := by
    have := sorted_length_add_le D 0 n hv.sorted (fun x hx => ⟨Nat.zero_le _, hb x hx⟩) (Nat.zero_le _)
    omega
  have hv' := hv
  rw [e] at hv'
  obtain ⟨F', g, k1, k2, k3, k4⟩ := Ram.modify_step h1 h2 h3 hv'
  obtain ⟨u, k1⟩ : ∃ u, Ram.modify F leaves D = .ok (true, some u, F') := ⟨_, k1⟩
  have hT : n - D.length + leaves.length ≤ 2 ^ 62 := by rw [← hlen]; simpa using hv.total
  have hll : leaves'.length = leaves.length := by simpa using congrArg List.length hl
  obtain ⟨f1, f2⟩ := Ram.sg_facts h2 hv.sorted hb
  rw [hlen] at rem
  set σ := sg n (n - D.length) D (St.numRows n) 0 with hσ
  have hlt : ∀ x, x < n → σ.symm x < n := by
    intro x hx
    by_contra hc
    have := f1 (σ.symm x) (by omega)
    have := σ.symm.injective this
    omega
  obtain ⟨p1, A1, r1, r2, r3⟩ := rem
  obtain ⟨p2, A2, a1, a2, -, a4, -⟩ := add_ok leaves' p1 _ _ A1 r2 (by omega)
  have hadd := Ram.addLeaves_range (leafFn HashOps.zero L ∘ σ.symm) (n - D.length) (leaves.map Prod.fst)
  have hL' : (List.range (n - D.length + leaves.length)).map g =
      (List.range (n - D.length + leaves.length)).map (Ram.addLeaves (leafFn HashOps.zero L ∘ σ.symm) (n - D.length) (leaves.map Prod.fst)) := by
    rw [List.length_map] at hadd
    rw [k4, hadd]
    congr 1
    apply List.map_congr_left
    intro x hx
    have hx : x < n - D.length := List.mem_range.1 hx
    show f (σ.symm x) = leafFn HashOps.zero L (σ.symm x)
    rw [e, Ram.leafFn_range f _ (hlt x (by omega))]
  have hsy : SyncInv F' ((u, F) :: st) p2 ((List.range (n - D.length + leaves.length)).map g) A2 := by
    refine ⟨Ram.Run.modify h.sync.run h.sync.rep hv k1, k2.represents hT, by simpa using hT, ?_⟩
    rw [hll, hl] at a2
    rw [List.length_map, List.length_range]
    refine a2.congr ?_
    intro x hx
    rw [hL', Ram.leafFn_range _ _ hx]
  have hmod : Modified L (leaves.map Prod.fst) D ((List.range (n - D.length + leaves.length)).map g) := by
    refine ⟨_, ?_, k4⟩
    rw [e, Ram.survivors_range, ← List.map_map]
    exact (Ram.range_perm f1 (Nat.sub_le _ _) f2).map f
  have hnd' := hsy.nodup
  refine ⟨_, F', p2, _, A2, k1, ?_, hmod, hsy, ?_, ?_⟩
  · unfold Pol.modify Acc.modify
    rw [r1, ok_bind]
    simp only [Bool.not_true, Bool.false_eq_true, if_false]
    rw [a1, ok_bind]; rfl
  · have hL1 : ∀ x, x < n - D.length → ((List.range (n - D.length + leaves.length)).map g)[x]? = some (leafFn HashOps.zero L (σ.symm x)) := by
      intro x hx
      rw [hL']
      rw [List.length_map] at hadd
      rw [hadd, List.getElem?_append_left (by simpa using hx)]
      simp [hx]
    have hL2 : ∀ i, ((List.range (n - D.length + leaves.length)).map g)[n - D.length + i]? = (leaves.map Prod.fst)[i]? := by
      intro i
      rw [k4, List.getElem?_append_right (by simp)]
      simp
    have hlen' : ((List.range (n - D.length + leaves.length)).map g).length = n - D.length + leaves'.length := by simp [hll]
    generalize (List.range (n - D.length + leaves.length)).map g = L' at *
    have hinj' : ∀ (i j : ℕ) (g : H), L'[i]? = some g → L'[j]? = some g → i = j := by
      intro i j g e1 e2
      obtain ⟨b1, c1⟩ := List.getElem?_eq_some_iff.1 e1
      obtain ⟨b2, c2⟩ := List.getElem?_eq_some_iff.1 e2
      exact (List.Nodup.getElem_inj_iff hnd').1 (c1.trans c2.symm)
    -- where the leaves added are
    have hnew : ∀ x, (x, true) ∈ leaves' ↔ ∃ (i : ℕ) (l : Leaf H), leaves'[i]? = some l ∧ l.2 = true ∧ L'[n - D.length + i]? = some x := by
      intro x
      constructor
      · intro hx
        obtain ⟨i, hi⟩ := List.mem_iff_getElem?.1 hx
        exact ⟨i, _, hi, rfl, by rw [hL2, ← hl, List.getElem?_map, hi]; rfl⟩
      · rintro ⟨i, l, hi, hl2, hx⟩
        rw [hL2, ← hl, List.getElem?_map, hi] at hx
        have : l = (x, true) := by
          obtain ⟨l1, l2⟩ := l
          simp only [Option.map_some, Option.some.injEq] at hx
          simp only at hl2
          rw [hx, hl2]
        rw [← this]
        exact List.mem_of_getElem? hi
    intro j x hj
    rw [hlen', a4 j, hnew x]
    rcases Nat.lt_or_ge j (n - D.length) with hjn | hjn
    · have hx := hL1 j hjn
      rw [hj, Option.some.injEq] at hx
      have hin := hlt j (by omega)
      have hLi : L[σ.symm j]? = some x := leafFn_get.2 ⟨by omega, hx.symm⟩
      have hit : σ.symm j ∉ D := fun hc => by
        have := (f2 j (by omega)).2 hc
        omega
      have h5 : Flag p1.ext (rtOf (n - D.length)) A1 j ↔ Q x := by
        have := r3 (σ.symm j) (by rw [Equiv.apply_symm_apply]; exact hjn)
        rw [Equiv.apply_symm_apply] at this
        rw [this, ← hlen]
        exact h.flag _ _ hLi
      rw [h5]
      constructor
      · rintro (hq | ⟨i, l, -, -, hc⟩)
        · exact .inl ⟨hq, mem_survivors.2 ⟨_, hLi, hit⟩⟩
        · omega
      · rintro (⟨hq, -⟩ | ⟨i, l, -, -, hc⟩)
        · exact .inl hq
        · have := hinj' _ _ _ hj hc; omega
    · have h5 : ¬ Flag p1.ext (rtOf (n - D.length)) A1 j := by
        intro hf
        obtain ⟨q, hq, -⟩ := hf.holder
        obtain ⟨w, hw⟩ := holder_addr hq
        unfold holder at hq
        cases hrt : rtOf (n - D.length) 0 j with
        | true => have := rtOf_in hrt; simp at this; omega
        | false =>
          rw [hrt] at hq
          simp only [Bool.false_eq_true, if_false] at hq
          cases hrt2 : rtOf (n - D.length) 0 (j ^^^ 1) with
          | true => rw [hrt2] at hq; simp at hq
          | false =>
            rw [hrt2] at hq
            simp only [Bool.false_eq_true, if_false] at hq
            have h6 : j ^^^ 1 < n - D.length := by
              by_contra hc
              rw [r2.out 0 (j ^^^ 1) (by simpa using hc)] at hq
              simp at hq
            have := sib_lt h6 hrt2
            rw [sb_sb] at this
            omega
      constructor
      · rintro (hc | ⟨i, l, hi, hl2, rfl⟩)
        · exact absurd hc h5
        · exact .inr ⟨i, l, hi, hl2, hj⟩
      · rintro (⟨-, hs⟩ | ⟨i, l, hi, hl2, hc⟩)
        · exfalso
          obtain ⟨i, hi, hiD⟩ := mem_survivors.1 hs
          have hin := (List.getElem?_eq_some_iff.1 hi).1
          have hit : i ∉ D := hiD
          have hsi : σ i < n - D.length := by
            by_contra hc
            have h3 : σ i < n := by
              by_contra hc2
              have := f1 (σ i) (by omega)
              rw [Equiv.symm_apply_apply] at this
              omega
            have := (f2 (σ i) h3).1 (by omega)
            rw [Equiv.symm_apply_apply] at this
            exact hit this
          have := hL1 (σ i) hsi
          rw [Equiv.symm_apply_apply, (leafFn_get.1 hi).2] at this
          have := hinj' _ _ _ hj this
          omega
        · exact .inr ⟨i, l, hi, hl2, hinj' _ _ _ hj hc⟩
  · obtain ⟨K, hK, hLK⟩ := hmod
    rintro x (⟨-, hx⟩ | hx)
    · rw [hLK]
      exact List.mem_append_left _ ((hK.mem_iff).2 hx)
    · rw [hLK, ← hl]
      exact List.mem_append_right _ (List.mem_map.2 ⟨_, hx, rfl⟩)

/-- A block with a single deletion that was not verified. -/
theorem Pol.HInv.single {F : RamForest H} {st : List (UndoBatch H × RamForest H)} {p : Pollard H} {L : List H} {A : Addr}
    {Q : H → Prop} (h : HInv F st p L A Q) {t k : ℕ} {leaves leaves' : List (Leaf H)} (hv : Ram.Valid L (leaves.map Prod.fst) [t])
    (hl : leaves'.map Prod.fst = leaves.map Prod.fst) (hdiv : L.length % 2 ^ k = 0) (hQ : ∃ a, L[t]? = some a ∧ Q a)
    (hP : PresFrom L.length A [t] k) :
    ∃ u F' p' L' A', Ram.modify F leaves [t] = .ok (true, some u, F') ∧ Pol.modify p leaves' [t] = .ok (true, p') ∧
      Modified L (leaves.map Prod.fst) [t] L' ∧
      HInv F' ((u, F) :: st) p' L' A' (fun x => (Q x ∧ x ∈ survivors L [t]) ∨ (x, true) ∈ leaves') := by
  have ht : t < L.length := hv.bound t (by simp)
  obtain ⟨a, ha, hQa⟩ := hQ
  obtain ⟨p1, A1, r1, r2, r3, -⟩ := remove_single_ok h.sync.inv h.sync.len ht hdiv ((h.flag t a ha).2 hQa) hP
  exact h.removed hv hl ⟨p1, A1, r1, r2, r3⟩

/-- C53, a case in which it holds without a proof: a single deletion of a leaf that the pollard remembers. The leaf must lie in
the smallest tree or, from the height of the smallest tree on, every subtree that is the sibling of one with the leaf must hold a
remembered leaf too. Then `Modify` follows the forest, and remembers what it should. Missing: other deletions, for which the claim is
false (`C53_wrong_roots`, `C53_crash`, `C53_crash_single`). -/
theorem C53_single_partial (F : RamForest H) (st : List (UndoBatch H × RamForest H)) (p : Pollard H) (Q : H → Prop)
    (h : Held F st p Q) (L : List H) (hL : Ram.Represents F L) (leaves leaves' : List (Leaf H)) (t : ℕ)
    (hv : Ram.Valid L (leaves.map Prod.fst) [t]) (hl : leaves'.map Prod.fst = leaves.map Prod.fst)
    (hQ : ∃ a, L[t]? = some a ∧ Q a) (k : ℕ) (hk : 2 ^ k ∣ L.length)
    (hs : ∀ r, k ≤ r → InForest L.length (r + 1) (t / 2 ^ (r + 1)) →
      ∃ i b, L[i]? = some b ∧ Q b ∧ i / 2 ^ r ≠ t / 2 ^ r ∧ i / 2 ^ (r + 1) = t / 2 ^ (r + 1)) :
    ∃ u F' p' L' rs, Ram.modify F leaves [t] = .ok (true, some u, F') ∧ Pol.modify p leaves' [t] = .ok (true, p') ∧
      Ram.Represents F' L' ∧ Modified L (leaves.map Prod.fst) [t] L' ∧
      p'.numLeaves = F'.numLeaves ∧ Ram.roots F' = .ok rs ∧ Pol.roots p' = .ok rs ∧
      ∀ S : List H, S.Nodup → (∀ x, x ∈ S ↔ (Q x ∧ x ∈ survivors L [t]) ∨ (x, true) ∈ leaves') → numCachedLeaves p' = S.length := by
  obtain ⟨L0, A, hI⟩ := h.inv
  obtain rfl := hL.unique hI.sync.rep
  have hn := hI.sync.len
  have hP : PresFrom L.length A [t] k := by
    intro t' ht' r hr hin
    rw [List.mem_singleton] at ht'
    subst ht'
    by_cases hp : t' / 2 ^ (r + 1) < L.length / 2 ^ (r + 1)
    · obtain ⟨i, b, hi, hQb, h1, h2⟩ := hs r hr (inForest_iff.2 hp)
      have hzz : t' / 2 ^ r / 2 < L.length / 2 ^ (r + 1) := by rw [div_div_two]; exact hp
      have fx := rtOf_false hzz
      have fx' : rtOf L.length r (t' / 2 ^ r ^^^ 1) = false := rtOf_false (by rw [sb_div]; exact hzz)
      have hup : ∀ {x : ℕ} {a : H}, L[x]? = some a → Q a → x / 2 ^ r < L.length / 2 ^ r →
          (holder (rtOf L.length) A r (x / 2 ^ r)).isSome := by
        intro x a hx hq hb
        obtain ⟨w, hw, -⟩ := ((hI.flag x a hx).2 hq).holder
        have := hI.sync.inv.ph.shape.holders (r := 0) (i := x) (by rw [hw]; rfl) r (by rw [zero_add]; exact hb)
        rwa [zero_add] at this
      obtain ⟨a, ha, hQa⟩ := hQ
      have b1 := hup ha hQa hin
      have hix : i / 2 ^ r = t' / 2 ^ r ^^^ 1 := by
        have aux : ∀ u v : ℕ, u ≠ v → u / 2 = v / 2 → u = v ^^^ 1 := by
          intro u v h1 h2
          rw [xor_one_cases]; split <;> omega
        exact aux _ _ h1 (by rw [div_div_two, div_div_two]; exact h2)
      have b2 := hup hi hQb (by
        have aux : ∀ u m : ℕ, u / 2 < m / 2 → u ^^^ 1 < m := by
          intro u m h
          rw [xor_one_cases]; split <;> omega
        rw [hix]
        exact aux _ _ (by rw [div_succ_row] at hzz; exact hzz))
      rw [hix, holder_sib fx' (by rw [sb_sb]; exact fx), sb_sb] at b2
      exact ⟨b2, b1⟩
    · apply pres_root hI.sync.inv.ph.shape
      rw [rtOf_iff hin, div_div_two]
      exact hp
  obtain ⟨u, F', p', L', A', k1, k2, k3, k4⟩ := hI.single hv hl (Nat.mod_eq_zero_of_dvd hk) hQ hP
  exact ⟨u, F', p', L', _, k1, k2, k4.sync.rep, k3, by rw [k4.sync.inv.ph.num, k4.sync.rep.count], k4.sync.rep.roots,
    k4.sync.inv.roots_ok, fun S hS1 hS2 => k4.count S hS1 hS2⟩

/-- C53, for a single remembered leaf exactly: let the smallest tree have height `k`. If `Read` finds the leaf's ancestor in every
row from `k` on then `Modify` follows the forest and remembers what it should; if not then `Modify` has undefined behaviour, namely
it writes through a null pointer. The forest deletes the leaf in both cases. -/
theorem C53_single_exact (F : RamForest H) (st : List (UndoBatch H × RamForest H)) (p : Pollard H) (Q : H → Prop)
    (h : Held F st p Q) (L : List H) (hL : Ram.Represents F L) (leaves leaves' : List (Leaf H)) (t : ℕ)
    (hv : Ram.Valid L (leaves.map Prod.fst) [t]) (hl : leaves'.map Prod.fst = leaves.map Prod.fst)
    (hQ : ∃ a, L[t]? = some a ∧ Q a) (k : ℕ) (hk : 2 ^ k ∣ L.length) (hk' : ¬ 2 ^ (k + 1) ∣ L.length) :
    ((∀ r, k ≤ r → InForest L.length r (t / 2 ^ r) → Pol.read p (Pol.at' L r (t / 2 ^ r)) ≠ .ok none) →
      ∃ u F' p' L' rs, Ram.modify F leaves [t] = .ok (true, some u, F') ∧ Pol.modify p leaves' [t] = .ok (true, p') ∧
        Ram.Represents F' L' ∧ Modified L (leaves.map Prod.fst) [t] L' ∧
        p'.numLeaves = F'.numLeaves ∧ Ram.roots F' = .ok rs ∧ Pol.roots p' = .ok rs ∧
        ∀ S : List H, S.Nodup → (∀ x, x ∈ S ↔ (Q x ∧ x ∈ survivors L [t]) ∨ (x, true) ∈ leaves') → numCachedLeaves p' = S.length) ∧
    (∀ r, k ≤ r → InForest L.length r (t / 2 ^ r) → Pol.read p (Pol.at' L r (t / 2 ^ r)) = .ok none →
      (∃ u F', Ram.modify F leaves [t] = .ok (true, some u, F')) ∧ Pol.modify p leaves' [t] = .error .ub) := by
  obtain ⟨L0, A, hI⟩ := h.inv
  obtain rfl := hL.unique hI.sync.rep
  have hn := hI.sync.len
  have ht : t < L.length := hv.bound t (by simp)
  obtain ⟨a, ha, hQa⟩ := hQ
  have hflag := (hI.flag t a ha).2 hQa
  have hH : ∀ q, t / 2 ^ q < L.length / 2 ^ q → (holder (rtOf L.length) A q (t / 2 ^ q)).isSome := by
    intro q hq
    obtain ⟨w, hw, -⟩ := hflag.holder
    have := hI.sync.inv.ph.shape.holders (r := 0) (i := t) (by rw [hw]; rfl) q (by rw [zero_add]; exact hq)
    rwa [zero_add] at this
  have hrd : ∀ r, InForest L.length r (t / 2 ^ r) →
      Pol.read p (Pol.at' L r (t / 2 ^ r)) = .ok ((A r (t / 2 ^ r)).map fun _ => node L r (t / 2 ^ r)) := fun r hr =>
    hI.sync.inv.read_at hn (inForest_iff.1 hr)
  constructor
  · intro hA
    have hP : PresFrom L.length A [t] k := by
      intro t' ht' r hr hin
      rw [List.mem_singleton] at ht'
      subst ht'
      refine ⟨?_, hH r hin⟩
      have h1 := hA r hr (inForest_iff.2 hin)
      rw [hrd r (inForest_iff.2 hin)] at h1
      cases hc : A r (t' / 2 ^ r) with
      | none => rw [hc] at h1; simp at h1
      | some w => rfl
    obtain ⟨u, F', p', L', A', k1, k2, k3, k4⟩ := hI.single hv hl (Nat.mod_eq_zero_of_dvd hk) ⟨a, ha, hQa⟩ hP
    exact ⟨u, F', p', L', _, k1, k2, k4.sync.rep, k3, by rw [k4.sync.inv.ph.num, k4.sync.rep.count], k4.sync.rep.roots,
      k4.sync.inv.roots_ok, fun S hS1 hS2 => k4.count S hS1 hS2⟩
  · intro r hr hin hno
    refine ⟨?_, ?_⟩
    · obtain ⟨n, f, h1, h2, h3⟩ := hI.sync.run.inv
      have hv' := hv
      rw [hL.unique (h1.represents h2)] at hv'
      obtain ⟨F', g, k1, -⟩ := Ram.modify_step h1 h2 h3 hv'
      exact ⟨_, F', k1⟩
    · rw [hrd r hin] at hno
      have hA : A r (t / 2 ^ r) = none := by
        cases hc : A r (t / 2 ^ r) with
        | none => rfl
        | some w => rw [hc] at hno; simp at hno
      have hbit : L.length.testBit k = true := by
        rw [Nat.testBit_eq_decide_div_mod_eq, decide_eq_true_iff]
        obtain ⟨m, hm⟩ := hk
        have hpos : 0 < 2 ^ k := Nat.two_pow_pos k
        rw [hm, Nat.mul_div_cancel_left _ hpos]
        by_contra hc
        apply hk'
        refine ⟨m / 2, ?_⟩
        rw [hm, pow_succ, Nat.mul_assoc, show 2 * (m / 2) = m by omega]
      have hub := remove_single_ub hI.sync.inv hn ht (Nat.mod_eq_zero_of_dvd hk) hbit hflag hr (inForest_iff.1 hin) hA
      unfold Pol.modify Acc.modify
      rw [hub]
      rfl

section Witness

attribute [local instance] toyOps

/-- A block that adds `n` leaves, of which the pollard remembers those in the list. -/
def rememberSome (n : ℕ) (l : List ℕ) : Block ℕ :=
  { adds := (List.range n).map fun i => (11 + i, false, decide (i ∈ l)), dels := [] }

/-- C53 is false: of seven leaves the pollard remembers the first and the fourth, and deletes two others with proofs. Then `Modify`
with target 1, which is sane and which the pollard was not given a proof of, returns true; but the roots are not those of the forest. -/
theorem C53_wrong_roots : toyAfter [rememberSome 7 [0, 3], { adds := [], dels := [12] }, { adds := [], dels := [15] }] (fun F p => do
      let (b, _, F') ← Ram.modify F [] [1]
      let (c, p') ← Pol.modify p [] [1]
      return [b, c, decide (F'.numLeaves = p'.numLeaves), decide (Ram.roots F' = Pol.roots p')]) =
    .ok [true, true, true, false] := by decide +kernel

/-- C53: and it may crash, even when the target is a leaf that the pollard remembers and can prove. -/
theorem C53_crash : toyAfter [rememberSome 5 [4], { adds := [], dels := [11] }, { adds := [], dels := [13] }] (fun F p => do
      let l ← Ram.readLeafRange F 0 1
      let (b, _) ← Ram.modify F [] [0]
      let pf ← Acc.prove Pol.vt p [15]
      return ([decide (l = [15]), decide (numCachedLeaves p = 1), decide (PosMap.find p.posmap 15 = some 0), b, pf.isSome],
        (Pol.modify p [] [0]).map Prod.fst)) =
    .ok ([true, true, true, true, true], .error .ub) := by decide +kernel

/-- C53: and it crashes for the only leaf remembered of six, right after they were added. -/
theorem C53_crash_single : toyAfter [rememberSome 6 [0]] (fun F p => do
      let l ← Ram.readLeafRange F 0 1
      let (b, _) ← Ram.modify F [] [0]
      let pf ← Acc.prove Pol.vt p [11]
      return ([decide (l = [11]), decide (numCachedLeaves p = 1), b, pf.isSome], (Pol.modify p [] [0]).map Prod.fst)) =
    .ok ([true, true, true, true], .error .ub) := by decide +kernel

/-- C53: even where the roots are right, the position map can keep the leaf deleted, and then `Prove` still gives a proof for it.
The object hooked in for the deleted leaf has no hash, and the entry to erase is looked up by that hash. -/
theorem C53_stale : toyAfter [rememberSome 4 [0], { adds := [], dels := [12] }, { adds := [], dels := [13] }] (fun F p => do
      let l ← Ram.readLeafRange F 0 1
      let (b, _, F') ← Ram.modify F [] [0]
      let (c, p') ← Pol.modify p [] [0]
      let pf ← Acc.prove Pol.vt p' [11]
      let pf' ← Acc.prove Ram.vt F' [11]
      return [decide (l = [11]), b, c, decide (F'.numLeaves = p'.numLeaves), decide (Ram.roots F' = Pol.roots p'),
        decide (numCachedLeaves p' = 0), pf.isSome, pf'.isSome]) =
    .ok [true, true, true, true, true, true, true, false] := by decide +kernel

/-- Cases of `C53_single_partial`: in the only tree, in the smallest of two, and in the other one with another leaf remembered. The
pollard has to hook in objects for the deleted nodes. -/
example : [(4, [0], 0), (8, [5], 5), (8, [4], 4), (6, [4], 4), (12, [9], 9), (6, [0, 2], 0), (12, [0, 4], 0), (5, [0, 1, 2], 0)].map
    (fun x => toyAfter [rememberSome x.1 x.2.1] (fun F p => do
      let (b, _, F') ← Ram.modify F [(50, true)] [x.2.2]
      let (c, p') ← Pol.modify p [(50, true)] [x.2.2]
      return [b, c, decide (F'.numLeaves = p'.numLeaves), decide (Ram.roots F' = Pol.roots p'),
        decide (numCachedLeaves p' = x.2.1.length)])) = List.replicate 8 (.ok [true, true, true, true, true]) := by decide +kernel

/-- Both cases of `C53_single_exact`: of eleven leaves two are remembered. The smallest tree has one leaf. The ancestors of the leaf
at position 8 are all there; those of the leaf at position 0 in rows 1 and 2 are missing. -/
example : toyAfter [rememberSome 11 [0, 8]] (fun F p => do
      let rd ← [8, 20, 0, 16, 24, 28].mapM (Pol.read p)
      let (b, _, F') ← Ram.modify F [(50, true)] [8]
      let (c, p') ← Pol.modify p [(50, true)] [8]
      return ((rd.map Option.isSome, [b, c, decide (F'.numLeaves = p'.numLeaves), decide (Ram.roots F' = Pol.roots p')],
        numCachedLeaves p'), (Pol.modify p [(50, true)] [0]).map Prod.fst)) =
    .ok (([true, true, true, false, false, true], [true, true, true, true], 2), .error .ub) := by decide +kernel

/-- Cases of `C53_sibling_partial` and `C53_known_partial`: of six leaves the pollard remembers none. It verifies the first and the
fourth, and deletes the second and third; the nodes above the two can be read. Without the proofs it crashes. -/
example : toyAfter [rememberSome 6 []] (fun F p => do
      let some p1 ← verifyEach F [[11, 14]] p | .error .exc
      let rd ← [0, 1, 2, 3, 8, 9].mapM (Pol.read p1)
      let (b, _, F') ← Ram.modify F [(21, false)] [1, 2]
      let (c, p') ← Pol.modify p1 [(21, true)] [1, 2]
      return ([rd.all Option.isSome, decide (numCachedLeaves p = 0), (PosMap.find p1.posmap 12).isNone, b, c,
        decide (Ram.roots F' = Pol.roots p')], (Pol.modify p [] [1, 2]).map Prod.fst)) =
    .ok ([true, true, true, true, true, true], .error .ub) := by decide +kernel

/-- With `Verify` before it the same deletion follows the forest. -/
example : toyAfter [rememberSome 7 [0, 3], { adds := [], dels := [12] }, { adds := [], dels := [15] }] (fun F p => do
      let l ← Ram.readLeafRange F 1 2
      let (b, _, F') ← Ram.modify F [] [1]
      let some p1 ← verifyEach F [l] p | .error .exc
      let (c, p') ← Pol.modify p1 [] [1]
      return [b, c, decide (F'.numLeaves = p'.numLeaves), decide (Ram.roots F' = Pol.roots p')]) =
    .ok [true, true, true, true] := by decide +kernel

/-- A case of C52: three proofs, one of them repeated, with a wrong proof in between, and then one block that deletes three of
the four leaves verified. The pollard remembers nothing before. -/
example : toyAfter [rememberSome 7 []] (fun F p => do
      let some p1 ← verifyEach F [[11], [16]] p | .error .exc
      let (a, p2) ← Pol.verify p1 { targets := [2], sorted := [2], hashes := [14, 99999] } [13]
      let some p3 ← verifyEach F [[14, 15], [11]] p2 | .error .exc
      let (b, _, F') ← Ram.modify F [(21, false)] [0, 3, 5]
      let (c, p4) ← Pol.modify p3 [(21, true)] [0, 3, 5]
      return [a, b, c, decide (numCachedLeaves p = 0), decide (Ram.roots F' = Pol.roots p4)]) =
    .ok [false, true, true, true, true] := by decide +kernel

/-- A case of the archive: seven leaves, and three deletions without proofs. -/
example : toyAfter [rememberSome 7 [0, 1, 2, 3, 4, 5, 6]] (fun F p => do
      let (a, _, F1) ← Ram.modify F [(21, false)] [0, 3, 5]
      let (b, p1) ← Pol.modify p [(21, true)] [0, 3, 5]
      let (c, _, F2) ← Ram.modify F1 [(22, false)] [1, 4]
      let (d, p2) ← Pol.modify p1 [(22, true)] [1, 4]
      return [a, b, c, d, decide (numCachedLeaves p2 = 4), decide (Ram.roots F2 = Pol.roots p2)]) =
    .ok [true, true, true, true, true, true] := by decide +kernel

end Witness

end Utreexo
