import Verif.Props.Track
import Verif.Props.Memory

/-!
# C60: what a pollard's `Prove` returns

A pollard looks up the positions it has recorded for the hashes asked for. A recorded position may be stale (`C30_false`). Here
`Prove` is characterised for every state: the answer is never anything but the forest's own proof of the leaves that really are at
the recorded positions.
-/

set_option linter.unusedSectionVars false

namespace Utreexo

open Spec Equiv

variable {H : Type} [DecidableEq H] [HashOps H]

namespace Pol

theorem lookup_eq {m : PosMap H} : ∀ (q : List H) (ts : List ℕ),
    Acc.lookupTargets m q = some ts ↔ q.map (PosMap.find m) = ts.map some := by
  intro q
  induction q with
  | nil => intro ts; cases ts <;> simp [Acc.lookupTargets]
  | cons x q ih =>
    intro ts
    rw [Acc.lookupTargets, List.map_cons]
    cases hx : PosMap.find m x with
    | none => cases ts <;> simp
    | some v =>
      simp only
      cases ts with
      | nil => simp
      | cons t ts =>
        rw [List.map_cons, List.cons.injEq, ← ih ts, Option.some.injEq]
        cases hq : Acc.lookupTargets m q with
        | none => simp
        | some ts' => simp

theorem readable {F : RamForest H} {st : List (UndoBatch H × RamForest H)} {p : Pollard H} {L : List H} {A : Addr}
    (h : SyncInv F st p L A) {r k : ℕ} (hk : k < L.length / 2 ^ r) : (A r k).isSome ↔ read p (at' L r k) = .ok (some (node L r k)) := by
  rw [h.inv.read_at h.len hk]
  cases A r k <;> simp

theorem proofNode_in {n : ℕ} {T : List ℕ} {r k : ℕ} (h : ProofNode n T r k) : k < n / 2 ^ r := by
  obtain ⟨j, b, hb2, rfl, hf, -, -⟩ := h
  rw [inForest_iff] at hf
  have := Ram.child_bound hf
  omega

end Pol

open Pol

/-- C60: `Prove` on a pollard never faults. Let `ts` be the positions the pollard has recorded for the hashes. It returns a proof
exactly if every hash has a recorded position, these are different leaves of the forest, and every node needed is cached. The proof
then is the one the forest gives for the leaves at these positions, with these targets. -/
theorem C60_prove (F : RamForest H) (st : List (UndoBatch H × RamForest H)) (p : Pollard H) (h : Sync F st p) (L : List H)
    (hL : Ram.Represents F L) (q : List H) :
    ∃ r, Acc.prove vt p q = .ok r ∧
      (r.isSome ↔ ∃ ts : List ℕ, q.map (PosMap.find p.posmap) = ts.map some ∧ ts.Nodup ∧ (∀ t ∈ ts, t < L.length) ∧
        ∀ r k, ProofNode L.length ts r k → read p (at' L r k) = .ok (some (node L r k))) ∧
      ∀ proof, r = some proof → q.map (PosMap.find p.posmap) = proof.targets.map some ∧
        ∃ q', q'.map some = proof.targets.map (fun t => L[t]?) ∧ Acc.prove Ram.vt F q' = .ok (some proof) := by
  obtain ⟨L0, A, hI⟩ := h.inv
  obtain rfl := hL.unique hI.rep
  obtain ⟨n, f, h1, h2, -⟩ := hI.run.inv
  have e := hL.unique (h1.represents h2)
  have hlen : L.length = n := by rw [e]; simp
  have hg := h1.congr (g := leafFn HashOps.zero L) (fun x hx => by rw [e]; exact (Ram.leafFn_range f _ hx).symm)
  unfold Acc.prove
  rw [hI.inv.ph.num, h1.num, ← hlen]
  cases hl : Acc.lookupTargets p.posmap q with
  | none =>
    refine ⟨none, rfl, ?_, by simp⟩
    simp only [Option.isSome_none, Bool.false_eq_true, false_iff]
    rintro ⟨ts, e1, -⟩
    rw [(lookup_eq q ts).2 e1] at hl
    simp at hl
  | some ts =>
    have hts := (lookup_eq q ts).1 hl
    have huniq : ∀ ts', q.map (PosMap.find p.posmap) = ts'.map some → ts' = ts := by
      intro ts' e1
      rw [(lookup_eq q ts').2 e1] at hl
      exact Option.some.inj hl
    simp only
    obtain ⟨b, hb1, hb2⟩ := C07_checkTargetsSanity L.length (St.sortU64 ts)
    rw [hb1, ok_bind]
    cases b with
    | false =>
      refine ⟨none, rfl, ?_, by simp⟩
      simp only [Option.isSome_none, Bool.false_eq_true, false_iff]
      rintro ⟨ts', e1, e2, e3, -⟩
      obtain rfl := huniq ts' e1
      have : false = true := hb2.2 ⟨sortU64_sorted e2, fun t ht => e3 t ((mem_sortU64 _ _).1 ht)⟩
      simp at this
    | true =>
      obtain ⟨hs, hlt⟩ := hb2.1 rfl
      obtain ⟨nodes, comp, q1, -, q3, q4⟩ := Ram.proof_nodes hI.len hs hlt
      have hnd : ts.Nodup := (Ram.sortU64_perm ts).nodup_iff.1 (hs.imp (fun h => by omega))
      have hlt' : ∀ t ∈ ts, t < L.length := fun t ht => hlt t ((mem_sortU64 _ _).2 ht)
      have hpn : ∀ r k, (r, k) ∈ nodes ↔ ProofNode L.length ts r k := by
        intro r k
        rw [q3]
        unfold ProofNode
        simp only [mem_sortU64]
      simp only [Bool.not_true, Bool.false_eq_true, if_false]
      rw [q1, ok_bind]
      rcases readProof_ok hI.inv.ph hI.len nodes q4 with ⟨a1, a2⟩ | ⟨⟨x, hx, a1⟩, a2⟩
      · simp only [a2, ok_bind]
        refine ⟨_, rfl, ?_, ?_⟩
        · simp only [Option.isSome_some, true_iff]
          exact ⟨ts, hts, hnd, hlt', fun r k hk => (readable hI (proofNode_in hk)).1 (a1 (r, k) ((hpn r k).2 hk))⟩
        · intro proof hp
          injection hp with hp
          subst hp
          refine ⟨hts, ts.map (leafFn HashOps.zero L), ?_, ?_⟩
          · show _ = ts.map _
            rw [List.map_map]
            apply List.map_congr_left
            intro t ht
            have := hlt' t ht
            simp [leafFn, List.getElem?_eq_getElem this]
          · have hlk : Acc.lookupTargets F.posmap (ts.map (leafFn HashOps.zero L)) = some ts := by
              rw [lookup_eq, List.map_map]
              apply List.map_congr_left
              intro t ht
              have := hlt' t ht
              simp only [Function.comp_apply]
              rw [hL.find]
              simp [leafFn, List.getElem?_eq_getElem this]
            rw [hlk]
            simp only
            rw [hb1, ok_bind]
            simp only [Bool.not_true, Bool.false_eq_true, if_false]
            rw [q1, ok_bind]
            have hr := Ram.readProof_ok (hg.num.trans hlen.symm) hI.len (by rw [hlen]; exact hg.cells) nodes q4
            simp only [hr]
            rfl
      · simp only [a2, ok_bind]
        refine ⟨_, rfl, ?_, by simp⟩
        simp only [Option.isSome_none, Bool.false_eq_true, false_iff]
        rintro ⟨ts', e1, -, -, e4⟩
        obtain rfl := huniq ts' e1
        have hk := (hpn x.1 x.2).1 hx
        have := (readable hI (proofNode_in hk)).2 (e4 _ _ hk)
        rw [a1] at this
        simp at this

/-- C60: checking a pollard's proof with `Verify` tells stale positions. If any pollard that follows the forest, for example the
pollard itself, accepts the proof for the hashes asked for (in the order of their recorded positions), the proof is the forest's
proof of just these hashes, or a collision is cached. -/
theorem C60_accepted (F : RamForest H) (st : List (UndoBatch H × RamForest H)) (p p2 : Pollard H) (h : Sync F st p) (h2 : Sync F st p2)
    (L : List H) (hL : Ram.Represents F L) (q : List H) (proof : BatchProof H) (hp : Acc.prove vt p q = .ok (some proof)) (hq : q ≠ [])
    (hs : List H) (hperm : hs.Perm q) (hord : hs.map (PosMap.find p.posmap) = proof.sorted.map some) (p' : Pollard H)
    (hv : verify p2 proof hs = .ok (true, p')) : Acc.prove Ram.vt F q = .ok (some proof) ∨ Collision p' L := by
  obtain ⟨r, e1, -, e3⟩ := C60_prove F st p h L hL q
  rw [hp] at e1
  obtain ⟨g1, q', g2, g3⟩ := e3 proof (Except.ok.inj e1).symm
  have hne : proof.targets ≠ [] := by
    intro e
    rw [e] at g1
    cases q with
    | nil => exact hq rfl
    | cons x q => simp at g1
  rcases (C25_sound F st p2 h2 L hL proof hs p' hv).2 with h1 | ⟨-, h1⟩ | h1
  · exact absurd h1 hne
  · left
    have key : ∀ x ∈ q, ∃ t, PosMap.find p.posmap x = some t ∧ L[t]? = some x := by
      intro x hx
      obtain ⟨i, hi, rfl⟩ := List.getElem_of_mem (hperm.mem_iff.2 hx)
      have a1 : (hs.map (PosMap.find p.posmap))[i]? = (proof.sorted.map some)[i]? := by rw [hord]
      have a2 : (hs.map some)[i]? = (proof.sorted.map fun t => L[t]?)[i]? := by rw [h1]
      simp only [List.getElem?_map, List.getElem?_eq_getElem hi, Option.map_some] at a1 a2
      cases ht : proof.sorted[i]? with
      | none => rw [ht] at a1; simp at a1
      | some t =>
        rw [ht] at a1 a2
        simp only [Option.map_some, Option.some.injEq] at a1 a2
        exact ⟨t, a1, a2.symm⟩
    have : q' = q := by
      have a1 : q.map some = q'.map some := by
        rw [g2]
        have a2 : (q.map (PosMap.find p.posmap)).map (fun o => o.bind fun t => L[t]?) = proof.targets.map fun t => L[t]? := by
          rw [g1, List.map_map]; rfl
        rw [← a2, List.map_map]
        apply List.map_congr_left
        intro x hx
        obtain ⟨t, b1, b2⟩ := key x hx
        simp only [Function.comp_apply, b1, Option.bind_some, b2]
      exact (List.map_injective_iff.2 (Option.some_injective H) a1).symm
    rw [← this]; exact g3
  · exact .inr h1

/-- C60: with right positions the proof is the forest's and is accepted by every pollard that follows the forest. -/
theorem C60_right (F : RamForest H) (st : List (UndoBatch H × RamForest H)) (p p2 : Pollard H) (h : Sync F st p) (h2 : Sync F st p2)
    (L : List H) (hL : Ram.Represents F L) (q : List H) (proof : BatchProof H) (hp : Acc.prove vt p q = .ok (some proof))
    (hr : ∀ x ∈ q, ∃ t, PosMap.find p.posmap x = some t ∧ L[t]? = some x) (hs : List H)
    (hhs : hs.map some = proof.sorted.map fun t => L[t]?) :
    Acc.prove Ram.vt F q = .ok (some proof) ∧ ∃ p', verify p2 proof hs = .ok (true, p') := by
  obtain ⟨r, e1, -, e3⟩ := C60_prove F st p h L hL q
  rw [hp] at e1
  obtain ⟨g1, q', g2, g3⟩ := e3 proof (Except.ok.inj e1).symm
  have : q' = q := by
    have a1 : q.map some = q'.map some := by
      rw [g2]
      have a2 : (q.map (PosMap.find p.posmap)).map (fun o => o.bind fun t => L[t]?) = proof.targets.map fun t => L[t]? := by
        rw [g1, List.map_map]; rfl
      rw [← a2, List.map_map]
      apply List.map_congr_left
      intro x hx
      obtain ⟨t, b1, b2⟩ := hr x hx
      simp only [Function.comp_apply, b1, Option.bind_some, b2]
    exact (List.map_injective_iff.2 (Option.some_injective H) a1).symm
  rw [this] at g3
  obtain ⟨p', k1, -⟩ := C24_complete F st p2 h2 L hL q proof g3 hs hhs
  exact ⟨g3, p', k1⟩

/-- C60: `Prune` keeps the recorded positions but none of the hashes below the roots. Afterwards a proof is given exactly if it needs
no hash, that is if the leaves asked for make up whole trees. -/
theorem C60_prune (F : RamForest H) (st : List (UndoBatch H × RamForest H)) (p : Pollard H) (h : Sync F st p) (L : List H)
    (hL : Ram.Represents F L) (q : List H) :
    ∃ p' r, pruneAll p = .ok p' ∧ p'.posmap = p.posmap ∧ Acc.prove vt p' q = .ok r ∧
      (r.isSome ↔ ∃ ts : List ℕ, q.map (PosMap.find p.posmap) = ts.map some ∧ ts.Nodup ∧ (∀ t ∈ ts, t < L.length) ∧
        ∀ r k, ¬ ProofNode L.length ts r k) ∧
      ∀ proof, r = some proof → proof.hashes = [] := by
  obtain ⟨p', -, e1, -, -, -, -, -, e2⟩ := C28_prune F st p h
  have hpm : p'.posmap = p.posmap := by
    unfold pruneAll at e1
    obtain ⟨heap, -, e1⟩ := bind_eq_ok.1 e1
    obtain ⟨u, -, e1⟩ := bind_eq_ok.1 e1
    rw [← Except.ok.inj e1]
  obtain ⟨r, g1, g2, g3⟩ := C60_prove F st p' e2 L hL q
  have hno : ∀ ts r k, ProofNode L.length ts r k → read p' (at' L r k) = .ok none := by
    intro ts r k hk
    have hin := proofNode_in hk
    refine (C28_read F st p h L hL p' e1 r k (inForest_iff.2 hin)).1 ?_
    obtain ⟨j, b, hb, rfl, hf, -⟩ := hk
    have : (2 * j + (1 - b)) / 2 = j := by omega
    rw [this]; exact hf
  rw [hpm] at g2
  have hiff : r.isSome ↔ ∃ ts : List ℕ, q.map (PosMap.find p.posmap) = ts.map some ∧ ts.Nodup ∧ (∀ t ∈ ts, t < L.length) ∧
      ∀ r k, ¬ ProofNode L.length ts r k := by
    rw [g2]
    constructor
    · rintro ⟨ts, a1, a2, a3, a4⟩
      refine ⟨ts, a1, a2, a3, fun r k hk => ?_⟩
      have := a4 r k hk
      rw [hno ts r k hk] at this
      simp at this
    · rintro ⟨ts, a1, a2, a3, a4⟩
      exact ⟨ts, a1, a2, a3, fun r k hk => absurd hk (a4 r k)⟩
  refine ⟨p', r, e1, hpm, g1, hiff, ?_⟩
  rintro proof rfl
  obtain ⟨k1, q', -, k2⟩ := g3 proof rfl
  obtain ⟨ts, a1, -, -, a4⟩ := hiff.1 rfl
  rw [hpm] at k1
  have : ts = proof.targets := by
    rw [a1] at k1
    exact List.map_injective_iff.2 (Option.some_injective ℕ) k1
  obtain ⟨L1, A, hI⟩ := h.inv
  obtain ⟨r', m1, -, m3⟩ := C22_prove F st hI.run L hL q'
  rw [k2] at m1
  obtain ⟨-, -, -, nodes, -, m5, m6⟩ := m3 proof (Except.ok.inj m1).symm
  rw [m6]
  cases nodes with
  | nil => rfl
  | cons x nodes => exact absurd ((m5 x.1 x.2).1 (by simp)) (by rw [← this]; exact a4 _ _)

/-! ## Concrete cases -/

section Examples

attribute [local instance] toyOps

/-- The stale position of `C30_false` under `C60_prove`: 13 is recorded at 2, where 12 is; the proof is the forest's proof of 12. -/
example : toyAfter [{ adds := [(11, false, false), (12, false, false), (13, false, true), (14, false, false), (15, false, false)], dels := [] },
        { adds := [], dels := [14] }, { adds := [], dels := [11] }]
      (fun F p => do return (PosMap.find p.posmap 13, decide (Acc.prove vt p [13] = Acc.prove Ram.vt F [12]))) =
    .ok (some 2, true) := by decide +kernel

/-- A case of `C60_prune`: of five leaves two are remembered. Before, both are proved; afterwards only the one that is a tree of its
own. -/
example : toyAfter [{ adds := [(11, false, false), (12, false, false), (13, false, true), (14, false, false), (15, false, true)], dels := [] }]
      (fun _ p => do
        let p' ← pruneAll p
        return ([(← Acc.prove vt p [13, 15]).isSome, (← Acc.prove vt p' [13]).isSome, (← Acc.prove vt p' [15]).isSome],
          p'.posmap.length)) =
    .ok ([true, false, true], 2) := by decide +kernel

end Examples

end Utreexo
