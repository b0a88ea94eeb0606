import Verif.Props.Track

/-!
# C40: which proofs `Pollard::Verify` accepts

`Verify` accepts a proof of a non-empty set of targets exactly if the target hashes are the leaves of
the forest and the proof hashes are read completely along the proof nodes (`Spec.Reads`): nodes the
pollard has may be left out, all others must be there, and nothing else may be there.
-/

set_option linter.unusedSectionVars false

namespace Utreexo
open Spec Equiv

variable {H : Type} [DecidableEq H] [HashOps H]

namespace Pol

/-- The nodes of the proof of the targets, in the order of their positions. -/
def ProofNodes (n : ℕ) (targets : List ℕ) (nodes : List (ℕ × ℕ)) : Prop :=
  nodes.Pairwise (fun a b => posOf (St.numRows n) a.1 a.2 < posOf (St.numRows n) b.1 b.2) ∧
    ∀ r k, (r, k) ∈ nodes ↔ ProofNode n targets r k

/-- The pollard has cached the node. -/
def known (p : Pollard H) (L : List H) (a : ℕ × ℕ) : Bool :=
  match read p (at' L a.1 a.2) with
  | .ok (some _) => true
  | _ => false

/-- The nodes, last one first, with their hashes. -/
def seen (p : Pollard H) (L : List H) (nodes : List (ℕ × ℕ)) : List (Bool × H) :=
  nodes.reverse.map fun a => (known p L a, node L a.1 a.2)

/-- The targets are sorted leaf positions, the hashes are the leaves there, and the proof hashes are
read completely along the proof nodes. -/
structure Fits (p : Pollard H) (L : List H) (nodes : List (ℕ × ℕ)) (proof : BatchProof H) (hs : List H) : Prop where
  count : hs.length = proof.targets.length
  sorted : proof.sorted.Pairwise (· < ·)
  leaves : hs.map some = proof.sorted.map fun t => L[t]?
  reads : Reads HashOps.zero (seen p L nodes) proof.hashes.reverse

/-! ## Reading -/

theorem planRev_eq (A : Addr) (v : ℕ → ℕ → H) (P : ℕ → List ℕ) (k : ℕ) :
    planRev A v P k = (((List.range' 0 k).flatMap fun q => (P q).map fun x => (q, x)).reverse.map
      fun a => ((A a.1 a.2).isSome, v a.1 a.2)) := by
  induction k with
  | zero => rfl
  | succ k ih =>
    rw [planRev, ih, List.range'_concat, List.flatMap_append, List.reverse_append, List.map_append]
    congr 1
    simp [planRow, Function.comp_def, ← List.map_reverse]

theorem known_eq {p : Pollard H} {L : List H} {A : Addr} (h : Inv p L.length (leafFn HashOps.zero L) A) (hn : L.length ≤ 2 ^ 62)
    {r i : ℕ} (hi : i < L.length / 2 ^ r) : known p L (r, i) = (A r i).isSome := by
  unfold known
  rw [h.read_at hn hi]
  cases A r i <;> rfl

theorem plan_seen {p : Pollard H} {L : List H} {A : Addr} (h : Inv p L.length (leafFn HashOps.zero L) A) {D : List ℕ}
    (hD : Sane L.length D) {nodes : List (ℕ × ℕ)} (hN : ProofNodes L.length D nodes) :
    planRev A (mt (leafFn HashOps.zero L)) (Pn L.length D) (St.numRows L.length + 1) = seen p L nodes := by
  rw [planRev_eq, ← spec_nodes hD hN.1 hN.2]
  unfold seen
  apply List.map_congr_left
  rintro ⟨r, k⟩ ha
  have hP := (hN.2 r k).1 (List.mem_reverse.1 ha)
  have : k < L.length / 2 ^ r := ProofNode.inn hP
  rw [known_eq h hD.n62 this]

theorem reads_sublist {z : H} : ∀ (q : List (Bool × H)) (hs : List H), Reads z q hs → hs.Sublist (q.map Prod.snd)
  | [], hs, h => by rw [show hs = [] from h]; exact List.Sublist.refl _
  | (false, a) :: q, hs, h => by
    obtain ⟨t, rfl, h⟩ := h
    exact (reads_sublist q t h).cons₂ _
  | (true, a) :: q, hs, h => by
    rcases h with ⟨t, rfl, h⟩ | ⟨-, -, h⟩
    · exact (reads_sublist q t h).cons₂ _
    · exact (reads_sublist q hs h).cons _

theorem reads_unknown {z : H} : ∀ (q : List (Bool × H)) (hs : List H), Reads z q hs → ∀ h, (false, h) ∈ q → h ∈ hs
  | [], hs, _, h, hm => by simp at hm
  | (false, a) :: q, hs, hr, h, hm => by
    obtain ⟨t, rfl, hr⟩ := hr
    rcases List.mem_cons.1 hm with e | hm
    · rw [(Prod.mk.inj e).2]; simp
    · exact List.mem_cons_of_mem _ (reads_unknown q t hr h hm)
  | (true, a) :: q, hs, hr, h, hm => by
    have hm : (false, h) ∈ q := by
      rcases List.mem_cons.1 hm with e | hm
      · simp at e
      · exact hm
    rcases hr with ⟨t, rfl, hr⟩ | ⟨-, -, hr⟩
    · exact List.mem_cons_of_mem _ (reads_unknown q t hr h hm)
    · exact reads_unknown q hs hr h hm

/-- With distinct hashes the order of reading does not matter. -/
theorem reads_of_sublist {z : H} : ∀ (q : List (Bool × H)) (hs : List H), (q.map Prod.snd).Nodup → (∀ h, (true, h) ∈ q → h ≠ z) →
    hs.Sublist (q.map Prod.snd) → (∀ h, (false, h) ∈ q → h ∈ hs) → Reads z q hs
  | [], hs, _, _, h, _ => by
    rw [List.map_nil, List.sublist_nil] at h; exact h
  | (b, a) :: q, hs, hn, hz, h, hu => by
    rw [List.map_cons, List.nodup_cons] at hn
    have hq : ∀ (t : List H), t.Sublist (q.map Prod.snd) → (∀ h, (false, h) ∈ q → h ∈ t) → Reads z q t := fun t h1 h2 =>
      reads_of_sublist q t hn.2 (fun h hm => hz h (List.mem_cons_of_mem _ hm)) h1 h2
    have take : ∀ t : List H, hs = a :: t → t.Sublist (q.map Prod.snd) → Reads z q t := by
      intro t e ht
      refine hq t ht ?_
      intro h hm
      have := hu h (List.mem_cons_of_mem _ hm)
      rw [e] at this
      rcases List.mem_cons.1 this with rfl | h'
      · exact absurd (List.mem_map_of_mem (f := Prod.snd) hm) hn.1
      · exact h'
    rw [List.map_cons] at h
    cases h with
    | cons _ h =>
      have ha : a ∉ hs := fun hc => hn.1 (h.subset hc)
      cases b with
      | false => exact absurd (hu a (by simp)) ha
      | true =>
        refine .inr ⟨?_, fun _ => hz a (by simp), hq hs h fun x hm => hu x (List.mem_cons_of_mem _ hm)⟩
        intro hc
        exact ha (List.mem_of_mem_head? hc)
    | @cons_cons t _ _ h =>
      cases b with
      | false => exact ⟨_, rfl, take _ rfl h⟩
      | true => exact .inl ⟨_, rfl, take _ rfl h⟩

theorem reads_all_unknown {z : H} : ∀ (q : List (Bool × H)) (hs : List H), (∀ e ∈ q, e.1 = false) → Reads z q hs →
    hs = q.map Prod.snd
  | [], hs, _, h => h
  | (true, a) :: q, hs, h, _ => by simpa using h (true, a) (by simp)
  | (false, a) :: q, hs, h, hr => by
    obtain ⟨t, rfl, hr⟩ := hr
    rw [List.map_cons, ← reads_all_unknown q t (fun e he => h e (List.mem_cons_of_mem _ he)) hr]

theorem reads_all_known {z : H} : ∀ (q : List (Bool × H)), (∀ e ∈ q, e.1 = true ∧ e.2 ≠ z) → Reads z q []
  | [], _ => rfl
  | (b, a) :: q, h => by
    obtain ⟨h1, h2⟩ := h (b, a) (by simp)
    simp only at h1 h2
    subst h1
    exact .inr ⟨by simp, fun _ => h2, reads_all_known q fun e he => h e (List.mem_cons_of_mem _ he)⟩

end Pol

open Pol

/-! ## C40 -/

theorem leaves_eq {L : List H} {D : List ℕ} {hs : List H} (hlt : ∀ t ∈ D, t < L.length) :
    hs.map some = D.map (fun t => L[t]?) ↔ hs = D.map (leafFn HashOps.zero L) := by
  have : D.map (fun t => L[t]?) = (D.map (leafFn HashOps.zero L)).map some := by
    rw [List.map_map]
    apply List.map_congr_left
    intro t ht
    have := hlt t ht
    simp only [Function.comp_apply, leafFn, List.getD_eq_getElem?_getD]
    rw [List.getElem?_eq_getElem this]; rfl
  rw [this]
  exact (List.map_injective_iff.2 (Option.some_injective H)).eq_iff

theorem leaves_lt {L : List H} {D : List ℕ} {hs : List H} (h : hs.map some = D.map fun t => L[t]?) : ∀ t ∈ D, t < L.length := by
  intro t ht
  have : L[t]? ∈ hs.map some := by rw [h]; exact List.mem_map_of_mem ht
  obtain ⟨x, -, hx⟩ := List.mem_map.1 this
  by_contra hc
  rw [List.getElem?_eq_none (by omega)] at hx; simp at hx

/-- C40: what an accepted proof looks like. -/
theorem C40_only (F : RamForest H) (st : List (UndoBatch H × RamForest H)) (p : Pollard H) (h : Sync F st p) (L : List H)
    (hL : Ram.Represents F L) (proof : BatchProof H) (hs : List H) (ht : proof.targets ≠ []) (nodes : List (ℕ × ℕ))
    (hN : ProofNodes L.length proof.sorted nodes) (p' : Pollard H) (hv : verify p proof hs = .ok (true, p'))
    (hc : ¬ Collision p' L) : Fits p L nodes proof hs := by
  obtain ⟨L0, A, hI⟩ := h.inv
  obtain rfl := hL.unique hI.rep
  have hlen := (C25_sound F st p h L hL proof hs p' hv).1
  rcases verify_ok hI.inv hI.len proof hs with ⟨e, -⟩ | ⟨-, h0, -⟩ | ⟨e, -⟩ | ⟨s', e, -⟩ | ⟨s', A1, e, -, ha, hr, -⟩
  · rw [e] at hv; simp at hv
  · exact absurd h0 ht
  · rw [e] at hv; simp at hv
  · rw [e] at hv; simp at hv
  · rw [e] at hv
    obtain rfl : s' = p' := by simpa using hv
    rw [← coll_iff ha.ph hI.len] at hc
    refine ⟨hlen, ha.sane.sorted, (leaves_eq ha.sane.lt).2 (ha.sound hI.inv hc).2, ?_⟩
    rw [← plan_seen hI.inv ha.sane hN]
    rw [planRev_congr (w := mt (leafFn HashOps.zero L))] at hr
    · exact hr
    · intro r x hx
      exact ha.values hI.inv hc (St.numRows L.length + 1) r x (by omega) ((Vn_cases ha.sane).2 (.inr hx))

/-- C40: every such proof is accepted. -/
theorem C40_all (F : RamForest H) (st : List (UndoBatch H × RamForest H)) (p : Pollard H) (h : Sync F st p) (L : List H)
    (hL : Ram.Represents F L) (proof : BatchProof H) (hs : List H) (nodes : List (ℕ × ℕ))
    (hN : ProofNodes L.length proof.sorted nodes) (hf : Fits p L nodes proof hs) :
    ∃ p', verify p proof hs = .ok (true, p') ∧ ¬ Collision p' L := by
  obtain ⟨L0, A, hI⟩ := h.inv
  obtain rfl := hL.unique hI.rep
  have hlt := leaves_lt hf.leaves
  have hS : Sane L.length proof.sorted := ⟨hI.len, hf.sorted, hlt⟩
  have hon : Hon L.length (leafFn HashOps.zero L) A proof hs :=
    ⟨(leaves_eq hlt).1 hf.leaves, by rw [plan_seen hI.inv hS hN]; exact hf.reads⟩
  rcases verify_ok hI.inv hI.len proof hs with ⟨-, h1 | h1 | h1⟩ | ⟨e, -⟩ | ⟨-, h1, -⟩ | ⟨s', -, h1, -⟩ | ⟨s', A1, e, -, ha, -, hv⟩
  · exact absurd hf.count h1
  · exact absurd hS h1
  · exact absurd hon h1
  · exact ⟨p, e, inv_no_coll hI.inv hI.len⟩
  · exact absurd hon h1
  · exact absurd hon h1
  · exact ⟨s', e, inv_no_coll (ha.inv (hv hon)) hI.len⟩

/-- C40 for a parent hash without collisions: an exact description of the accepted proofs. -/
theorem C40_exact (hinj : ∀ a b c d : H, HashOps.ph a b = HashOps.ph c d → a = c ∧ b = d) (F : RamForest H)
    (st : List (UndoBatch H × RamForest H)) (p : Pollard H) (h : Sync F st p) (L : List H)
    (hL : Ram.Represents F L) (proof : BatchProof H) (hs : List H) (ht : proof.targets ≠ []) (nodes : List (ℕ × ℕ))
    (hN : ProofNodes L.length proof.sorted nodes) :
    (∃ p', verify p proof hs = .ok (true, p')) ↔ Fits p L nodes proof hs := by
  constructor
  · rintro ⟨p', hv⟩
    refine C40_only F st p h L hL proof hs ht nodes hN p' hv ?_
    rintro ⟨r, j, a, b, -, -, -, h1, h2⟩
    obtain ⟨rfl, rfl⟩ := hinj _ _ _ _ h2
    exact h1 rfl
  · intro hf
    obtain ⟨p', e, -⟩ := C40_all F st p h L hL proof hs nodes hN hf
    exact ⟨p', e⟩

/-- C40: an accepted proof holds no hash that the proof of the forest does not hold, in the same
order, and it holds the hash of every node the pollard has not cached. -/
theorem C40_no_junk (F : RamForest H) (st : List (UndoBatch H × RamForest H)) (p : Pollard H) (h : Sync F st p) (L : List H)
    (hL : Ram.Represents F L) (proof : BatchProof H) (hs : List H) (ht : proof.targets ≠ []) (nodes : List (ℕ × ℕ))
    (hN : ProofNodes L.length proof.sorted nodes) (p' : Pollard H) (hv : verify p proof hs = .ok (true, p'))
    (hc : ¬ Collision p' L) : proof.hashes.Sublist (nodes.map fun a => node L a.1 a.2) ∧
      ∀ a ∈ nodes, known p L a = false → node L a.1 a.2 ∈ proof.hashes := by
  have hf := (C40_only F st p h L hL proof hs ht nodes hN p' hv hc).reads
  constructor
  · have := reads_sublist _ _ hf
    rw [show (seen p L nodes).map Prod.snd = (nodes.map fun a => node L a.1 a.2).reverse by
      unfold seen; rw [List.map_map, ← List.map_reverse]; rfl] at this
    exact List.reverse_sublist.1 this
  · intro a ha hk
    have := reads_unknown _ _ hf (node L a.1 a.2) (List.mem_map.2 ⟨a, List.mem_reverse.2 ha, by rw [hk]⟩)
    exact List.mem_reverse.1 this

/-- C40: if the hashes of the proof nodes are distinct and none of them is the zero hash, the
converse holds as well: hashes of cached nodes can be left out at will. -/
theorem C40_trim (F : RamForest H) (st : List (UndoBatch H × RamForest H)) (p : Pollard H) (h : Sync F st p) (L : List H)
    (hL : Ram.Represents F L) (proof : BatchProof H) (hs : List H) (nodes : List (ℕ × ℕ))
    (hN : ProofNodes L.length proof.sorted nodes) (hlen : hs.length = proof.targets.length)
    (hsort : proof.sorted.Pairwise (· < ·)) (hlv : hs.map some = proof.sorted.map fun t => L[t]?)
    (hnd : (nodes.map fun a => node L a.1 a.2).Nodup) (h0 : ∀ a ∈ nodes, node L a.1 a.2 ≠ HashOps.zero)
    (h1 : proof.hashes.Sublist (nodes.map fun a => node L a.1 a.2))
    (h2 : ∀ a ∈ nodes, known p L a = false → node L a.1 a.2 ∈ proof.hashes) :
    ∃ p', verify p proof hs = .ok (true, p') ∧ ¬ Collision p' L := by
  have e : (seen p L nodes).map Prod.snd = (nodes.map fun a => node L a.1 a.2).reverse := by
    unfold seen; rw [List.map_map, ← List.map_reverse]; rfl
  refine C40_all F st p h L hL proof hs nodes hN ⟨hlen, hsort, hlv, reads_of_sublist _ _ ?_ ?_ ?_ ?_⟩
  · rw [e]; exact List.nodup_reverse.2 hnd
  · intro x hx
    obtain ⟨a, ha, he⟩ := List.mem_map.1 hx
    rw [← (Prod.mk.inj he).2]
    exact h0 a (List.mem_reverse.1 ha)
  · rw [e]; exact List.reverse_sublist.2 h1
  · intro x hx
    obtain ⟨a, ha, he⟩ := List.mem_map.1 hx
    rw [← (Prod.mk.inj he).2]
    exact List.mem_reverse.2 (h2 a (List.mem_reverse.1 ha) (Prod.mk.inj he).1)

/-- C40: a pollard that has cached none of the proof nodes accepts one proof of the targets, the
proof of the forest. -/
theorem C40_unique (F : RamForest H) (st : List (UndoBatch H × RamForest H)) (p : Pollard H) (h : Sync F st p) (L : List H)
    (hL : Ram.Represents F L) (proof : BatchProof H) (hs : List H) (ht : proof.targets ≠ []) (nodes : List (ℕ × ℕ))
    (hN : ProofNodes L.length proof.sorted nodes) (hk : ∀ a ∈ nodes, known p L a = false) (p' : Pollard H)
    (hv : verify p proof hs = .ok (true, p')) (hc : ¬ Collision p' L) :
    proof.hashes = nodes.map fun a => node L a.1 a.2 := by
  have hf := (C40_only F st p h L hL proof hs ht nodes hN p' hv hc).reads
  have := reads_all_unknown _ _ (by
    intro e he
    obtain ⟨a, ha, rfl⟩ := List.mem_map.1 he
    exact hk a (List.mem_reverse.1 ha)) hf
  rw [show (seen p L nodes).map Prod.snd = (nodes.map fun a => node L a.1 a.2).reverse by
      unfold seen; rw [List.map_map, ← List.map_reverse]; rfl] at this
  exact List.reverse_injective this

/-- C40: in particular after `Prune`. -/
theorem C40_pruned (F : RamForest H) (st : List (UndoBatch H × RamForest H)) (p q : Pollard H) (h : Sync F st p) (hq : pruneAll p = .ok q)
    (L : List H) (hL : Ram.Represents F L) (proof : BatchProof H) (hs : List H) (ht : proof.targets ≠ []) (nodes : List (ℕ × ℕ))
    (hN : ProofNodes L.length proof.sorted nodes) (p' : Pollard H)
    (hv : verify q proof hs = .ok (true, p')) (hc : ¬ Collision p' L) :
    proof.hashes = nodes.map fun a => node L a.1 a.2 := by
  refine C40_unique F st q (h.prune hq) L hL proof hs ht nodes hN ?_ p' hv hc
  rintro ⟨r, k⟩ ha
  have hP := (hN.2 r k).1 ha
  obtain ⟨j, b, hb, rfl, hj, -⟩ := hP
  have hi : InForest L.length r (2 * j + (1 - b)) := by
    have h1 := inForest_iff.1 hj
    rw [div_succ_row] at h1
    rw [inForest_iff]; omega
  have := (C28_read F st p h L hL q hq r _ hi).1 (by rw [show (2 * j + (1 - b)) / 2 = j by omega]; exact hj)
  unfold known
  rw [this]

/-- C40: once a proof is accepted, all its nodes are cached. -/
theorem C40_cached (F : RamForest H) (st : List (UndoBatch H × RamForest H)) (p : Pollard H) (h : Sync F st p) (L : List H)
    (hL : Ram.Represents F L) (proof : BatchProof H) (hs : List H) (ht : proof.targets ≠ []) (nodes : List (ℕ × ℕ))
    (hN : ProofNodes L.length proof.sorted nodes) (p' : Pollard H)
    (hv : verify p proof hs = .ok (true, p')) (hc : ¬ Collision p' L) : ∀ a ∈ nodes, known p' L a = true := by
  obtain ⟨L0, A, hI⟩ := h.inv
  obtain rfl := hL.unique hI.rep
  rcases verify_ok hI.inv hI.len proof hs with ⟨e, -⟩ | ⟨-, h0, -⟩ | ⟨e, -⟩ | ⟨s', e, -⟩ | ⟨s', A1, e, -, ha, -, -⟩
  · rw [e] at hv; simp at hv
  · exact absurd h0 ht
  · rw [e] at hv; simp at hv
  · rw [e] at hv; simp at hv
  · rw [e] at hv
    obtain rfl : s' = p' := by simpa using hv
    rw [← coll_iff ha.ph hI.len] at hc
    have hi := (ha.sound hI.inv hc).1
    rintro ⟨r, k⟩ hm
    have hP := (hN.2 r k).1 hm
    have hk : k < L.length / 2 ^ r := ProofNode.inn hP
    rw [known_eq hi hI.len hk]
    apply ha.pres
    rw [Vn_cases ha.sane]
    right
    have hm' := hm
    rw [spec_nodes ha.sane hN.1 hN.2] at hm'
    obtain ⟨q, -, hm'⟩ := List.mem_flatMap.1 hm'
    obtain ⟨x, hx, he⟩ := List.mem_map.1 hm'
    obtain ⟨rfl, rfl⟩ := Prod.mk.inj he
    exact hx

/-- C40: so the same targets are accepted again without any hashes, unless a proof node has the zero
hash. -/
theorem C40_again (F : RamForest H) (st : List (UndoBatch H × RamForest H)) (p : Pollard H) (h : Sync F st p) (L : List H)
    (hL : Ram.Represents F L) (proof : BatchProof H) (hs : List H) (ht : proof.targets ≠ []) (nodes : List (ℕ × ℕ))
    (hN : ProofNodes L.length proof.sorted nodes) (p' : Pollard H)
    (hv : verify p proof hs = .ok (true, p')) (hc : ¬ Collision p' L) (h0 : ∀ a ∈ nodes, node L a.1 a.2 ≠ HashOps.zero) :
    ∃ p'', verify p' { proof with hashes := [] } hs = .ok (true, p'') ∧ ¬ Collision p'' L := by
  have hf := C40_only F st p h L hL proof hs ht nodes hN p' hv hc
  have hk := C40_cached F st p h L hL proof hs ht nodes hN p' hv hc
  refine C40_all F st p' (h.verify hL hv fun _ => hc) L hL { proof with hashes := [] } hs nodes hN ⟨hf.count, hf.sorted, hf.leaves, ?_⟩
  refine reads_all_known _ ?_
  intro e he
  obtain ⟨a, ha, rfl⟩ := List.mem_map.1 he
  exact ⟨hk a (List.mem_reverse.1 ha), h0 a (List.mem_reverse.1 ha)⟩

/-- Every set of targets has its list of proof nodes. -/
theorem proofNodes_exist {n : ℕ} (hn : n ≤ 2 ^ 62) {T : List ℕ} (hs : T.Pairwise (· < ·)) (hb : ∀ t ∈ T, t < n) :
    ∃ nodes, ProofNodes n T nodes := by
  obtain ⟨nodes, -, -, h1, h2, -⟩ := Ram.proof_nodes hn hs hb
  exact ⟨nodes, h1, h2⟩

/-! ## Concrete cases -/

section Examples

attribute [local instance] toyOps

/-- The proof nodes of the leaves 1 and 5 among seven leaves. -/
example : ProofNodes 7 [1, 5] [(0, 0), (0, 4), (1, 1)] := by
  refine ⟨by decide, ?_⟩
  intro r k
  unfold ProofNode InForest
  constructor
  · intro h
    simp only [List.mem_cons, Prod.mk.injEq, List.not_mem_nil, or_false] at h
    rcases h with ⟨rfl, rfl⟩ | ⟨rfl, rfl⟩ | ⟨rfl, rfl⟩
    · exact ⟨0, 1, by decide⟩
    · exact ⟨2, 1, by decide⟩
    · exact ⟨0, 0, by decide⟩
  · rintro ⟨j, b, hb, rfl, hj, ⟨a, ha, he⟩, hn⟩
    have hr : r < 2 := by
      by_contra hc
      have : 2 ^ 3 ≤ 2 ^ (r + 1) := Nat.pow_le_pow_right (by omega) (by omega)
      have := Nat.mul_le_mul (show 1 ≤ j + 1 by omega) this
      omega
    simp only [List.mem_cons, List.not_mem_nil, or_false] at ha
    have hr' : r = 0 ∨ r = 1 := by omega
    have hb' : b = 0 ∨ b = 1 := by omega
    rcases hr' with rfl | rfl <;> rcases ha with rfl | rfl <;> rcases hb' with rfl | rfl <;> simp at he hn hj ⊢ <;> omega

/-- Which of a few lists of hashes are accepted as proof of the leaves 1 and 5 of the first block. -/
def tryProofs (p : Pollard ℕ) : Res (List Bool) :=
  [[11, 15, 13141], [11, 15], [15, 13141], [13141, 15, 11], [11, 15, 13141, 17], [17, 11, 15, 13141], [], [11, 11, 15]].mapM fun hs => do
    return (← verify p { targets := [5, 1], sorted := [1, 5], hashes := hs } [12, 16]).1

/-- A pruned pollard accepts one of them; after it has verified leaf 2 it knows the node `(1, 1)`,
whose hash can then be left out. -/
example : toyAfter (toyBlocks.take 1) (fun _ p => do
      let p ← pruneAll p
      let (b, p') ← verify p { targets := [2], sorted := [2], hashes := [14, 11121] } [13]
      let L := [11, 12, 13, 14, 15, 16, 17]
      return (b, ← tryProofs p, ← tryProofs p', [(0, 0), (0, 4), (1, 1)].map (known p' L))) =
    .ok (true, [true, false, false, false, false, false, false, false], [true, true, false, false, false, false, false, false],
      [false, false, true]) := by decide +kernel

/-- In `C40_trim` the hashes must be distinct: here the leaf 1 has the hash of the cached node
`(1, 1)`, and leaving out the hash of the cached node makes the proof fail. -/
theorem C40_trim_witness :
    toyAfter [{ adds := [(11, false, false), (13141, false, false), (13, false, false), (14, false, false)], dels := [] }] (fun _ p => do
      let (b, p) ← verify p { targets := [2], sorted := [2], hashes := [14, 142411] } [13]
      let (c, _) ← verify p { targets := [0], sorted := [0], hashes := [13141] } [11]
      let (d, _) ← verify p { targets := [0], sorted := [0], hashes := [13141, 13141] } [11]
      return (b, c, d, ← read p 1, ← read p 5)) = .ok (true, false, true, none, some 13141) := by decide +kernel

end Examples

end Utreexo
