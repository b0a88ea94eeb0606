import Verif.Model.Alloc
import Verif.Proof.WorkCount
import Verif.Proof.Unique

/-!
# Objects created by `CreateProofTree`
-/

set_option linter.unusedSectionVars false

namespace Utreexo
open Spec Equiv

namespace Claim
variable {α β : Type}

theorem of_ok (a : α) (f : α → Claim β) : (of (.ok a) >>= f) = f a := rfl

theorem of_bind (x : Res α) (f : α → Claim β) : (of x >>= f).out = x >>= fun a => (f a).out := by
  cases x <;> rfl

theorem snd_bind (x : Claim α) (f : α → Claim β) : (x >>= f).out = x.out >>= fun a => (f a).out := by
  obtain ⟨l, x⟩ := x
  cases x <;> rfl

theorem reserve_bind (n k : Nat) (f : Unit → Claim β) : (reserve n k >>= f) = ⟨n * k :: (f ()).req, (f ()).out⟩ := rfl

/-- Nothing is requested in the rest. -/
theorem fst_bind {x : Res α} {f : α → Claim β} (h : ∀ a, (f a).req = []) : (of x >>= f).req = [] := by
  cases x with
  | error e => rfl
  | ok a => exact h a

end Claim

variable {H : Type} [DecidableEq H] [HashOps H]

namespace Pol

/-- Computed nodes above the bottom row that are still to be visited. -/
def inner (n : ℕ) (l : List ℕ) : ℕ := (l.filter fun p => decide (n ≤ p)).length

/-- Objects created so far. -/
def kids (arena : List VNode) : ℕ := arena.countP fun v => v.parent.isSome

/-- What the visit of nodes may create. -/
structure Spends (n : ℕ) (c c' : CPT H) : Prop where
  heap : c'.heap.length + 2 * inner n c'.compPos ≤ c.heap.length + 2 * inner n c.compPos
  arena : kids c'.arena + 2 * inner n c'.compPos ≤ kids c.arena + 2 * inner n c.compPos

theorem Spends.refl (n : ℕ) (c : CPT H) : Spends n c c := ⟨le_rfl, le_rfl⟩

theorem Spends.trans {n : ℕ} {a b c : CPT H} (h : Spends n a b) (h' : Spends n b c) : Spends n a c :=
  ⟨h'.heap.trans h.heap, h'.arena.trans h.arena⟩

/-- The state in a step. -/
def stepSt {α : Type} : Step α → α
  | .cont a => a
  | .fail a => a

theorem store_length {heap heap' : List (INode H)} {p : Option ℕ} {x : INode H} (h : store heap p x = .ok heap') :
    heap'.length = heap.length := by
  unfold store at h
  cases p with
  | none => cases h
  | some i =>
    simp only [vecSet] at h
    split at h
    · cases h; simp
    · cases h

theorem hookMissing_length (heap : List (INode H)) (sib : Option ℕ) (b : ℕ) :
    After (hookMissing heap sib b) fun r => r.1.length ≤ heap.length + 1 := by
  unfold hookMissing
  refine .seq fun x => ?_
  cases INode.niece x b with
  | some _ => exact .pure (by simp)
  | none =>
    refine .seq fun y => .bind (Q := fun h => h.length = heap.length + 1) (fun a ha => ?_) fun h hh => .pure (by simp [hh])
    show a.length = _
    rw [store_length ha]; simp

theorem initChildren_length (n : ℕ) (heap : List (INode H)) (id : ℕ) (v : VNode) :
    After (initChildren n heap id v) fun r => r.1.length ≤ heap.length + 2 ∧ r.2.1.parent = some id ∧ r.2.2.1.parent = some id := by
  unfold initChildren
  refine .bind (hookMissing_length heap v.sib 0) fun a ha => ?_
  refine .bind (hookMissing_length a.1 v.sib 1) fun b hb => ?_
  refine .seq fun x => .seq fun l => .seq fun r => .pure ⟨?_, rfl, rfl⟩
  simp only
  omega

theorem kids_set {arena : List VNode} {id : ℕ} {v w : VNode} (h : vecGet arena id = .ok v) (hp : w.parent = v.parent) :
    kids (arena.set id w) = kids arena := by
  have hm : ∀ l : List VNode, kids l = (l.map VNode.parent).countP Option.isSome := by
    intro l; unfold kids; rw [List.countP_map]; rfl
  rw [hm, hm, List.map_set]
  congr 1
  unfold vecGet at h
  apply List.ext_getElem?
  intro i
  rw [List.getElem?_set]
  split
  · next e =>
    subst e
    rw [List.getElem?_map]
    cases e2 : arena[id]? with
    | none => simp [List.getElem?_eq_none_iff.1 e2]
    | some u =>
      rw [e2] at h
      cases h
      have := (List.getElem?_eq_some_iff.1 e2).1
      simp [this, hp]
  · rfl

theorem cptNode_spends (n : ℕ) (c : CPT H) (next : List ℕ) (id : ℕ) :
    After (cptNode n c next id) fun r => Spends n c (stepSt r).1 := by
  unfold cptNode
  refine .bind (Q := fun v => vecGet c.arena id = .ok v) (fun a h => h) fun v hv => ?_
  refine .seq fun _ => .seq fun _ => ?_
  dsimp only
  split
  · rename_i hc
    have hcp : c.compPos = v.pos :: c.compPos.tail := by
      cases e : c.compPos with
      | nil => rw [e] at hc; simp at hc
      | cons a l => rw [e] at hc; simp at hc; rw [hc]; rfl
    have hk : kids (c.arena.set id { v with target := true }) = kids c.arena := kids_set hv rfl
    split
    · rename_i hlt
      have : inner n c.compPos = inner n c.compPos.tail := by
        conv_lhs => rw [hcp]
        unfold inner
        rw [List.filter_cons_of_neg (by simpa using hlt)]
      refine .pure (Spends.mk ?_ ?_)
      · show c.heap.length + 2 * inner n c.compPos.tail ≤ _
        omega
      · show kids (c.arena.set id { v with target := true }) + 2 * inner n c.compPos.tail ≤ _
        omega
    · rename_i hlt
      have : inner n c.compPos = inner n c.compPos.tail + 1 := by
        conv_lhs => rw [hcp]
        unfold inner
        rw [List.filter_cons_of_pos (by simpa using hlt), List.length_cons]
      refine .bind (initChildren_length n c.heap id _) fun r hr => .pure (Spends.mk ?_ ?_)
      · show r.1.length + 2 * inner n c.compPos.tail ≤ _
        omega
      · show kids (c.arena.set id { v with target := true } ++ [r.2.1, r.2.2.1]) + 2 * inner n c.compPos.tail ≤ _
        have : kids (c.arena.set id { v with target := true } ++ [r.2.1, r.2.2.1]) = kids c.arena + 2 := by
          rw [← hk]
          unfold kids
          rw [List.countP_append]
          simp [hr.2.1, hr.2.2]
        omega
  · have hk : kids (c.arena.set id { v with target := false }) = kids c.arena := kids_set hv rfl
    have base : ∀ heap hs, heap.length = c.heap.length →
        Spends n c { heap := heap, roots := c.roots, arena := c.arena.set id { v with target := false }, recovery := c.recovery, hashes := hs, proofPos := c.proofPos.tail, compPos := c.compPos } := by
      intro heap hs h
      exact ⟨by simp only; omega, by simp only; omega⟩
    split
    · refine .seq fun x => ?_
      split
      · exact .ite .error (.pure (base _ _ rfl))
      · exact .ite (.pure (base _ _ rfl)) (.pure (base _ _ rfl))
    · split
      · exact .pure (base _ _ rfl)
      · refine .seq fun x => .bind (Q := fun h => h.length = c.heap.length) (fun a ha => store_length ha) fun h hh => .pure (base _ _ hh)

theorem cptRow_spends (n : ℕ) : ∀ (ids : List ℕ) (c : CPT H) (next : List ℕ),
    After (cptRow n ids c next) fun r => Spends n c (stepSt r).1 := by
  intro ids
  induction ids with
  | nil => intro c next; exact .ok (Spends.refl n c)
  | cons id ids ih =>
    intro c next
    rw [cptRow]
    refine .bind (cptNode_spends n c next id) fun r hr => ?_
    rcases r with ⟨c1, n1⟩ | x
    · exact fun a ha => hr.trans (ih c1 n1 a ha)
    · exact .pure hr

theorem attachRoot_spends (n row : ℕ) (c : CPT H) (tree : List ℕ) : After (attachRoot n row c tree) fun r => Spends n c r.1 := by
  unfold attachRoot
  split
  · exact .ok (Spends.refl n c)
  · refine .seq fun b => .ite (.seq fun rp => .ite (.seq fun i => .seq fun r => .pure ⟨le_rfl, ?_⟩) (.pure (Spends.refl n c))) (.pure (Spends.refl n c))
    simp [kids, List.countP_append]

theorem cptRows_spends (n : ℕ) : ∀ (k : ℕ) (c : CPT H) (tree : List ℕ), After (cptRows n k c tree) fun r => Spends n c (stepSt r).1 := by
  intro k
  induction k with
  | zero => intro c tree; exact .ok (Spends.refl n c)
  | succ k ih =>
    intro c tree
    rw [cptRows]
    refine .bind (attachRoot_spends n k c tree) fun a ha => ?_
    refine .bind (cptRow_spends n a.2.reverse a.1 []) fun r hr => ?_
    rcases r with ⟨c1, n1⟩ | x
    · exact fun b hb => (ha.trans hr).trans (ih c1 n1 b hb)
    · exact .pure (ha.trans hr)

/-- There are no more inner computed nodes than nodes above the targets. -/
theorem inner_computed {n : ℕ} {D : List ℕ} (hS : Sane n D) :
    inner n ((List.range' 0 (St.numRows n + 1)).flatMap (fun q => (Cn n D q).map (posOf (St.numRows n) q))).reverse ≤ computed n D 1 66 := by
  have hR : St.numRows n ≤ 62 := numRows_le_62 hS.n62
  unfold inner
  rw [List.filter_reverse, List.length_reverse, Nat.add_comm, ← List.range'_append_1, List.flatMap_append, List.filter_append,
    List.length_append]
  have h0 : ((List.range' 0 1).flatMap fun q => (Cn n D q).map (posOf (St.numRows n) q)).filter (fun p => decide (n ≤ p)) = [] := by
    rw [List.filter_eq_nil_iff]
    intro p hp
    rw [List.mem_flatMap] at hp
    obtain ⟨q, hq, hp⟩ := hp
    obtain rfl : q = 0 := by simpa using hq
    obtain ⟨x, hx, rfl⟩ := List.mem_map.1 hp
    have := ((mem_Cn hS).1 hx).1
    rw [posOf_zero]
    simp at this ⊢
    omega
  rw [h0, List.length_nil, Nat.zero_add, Nat.zero_add]
  refine (List.length_filter_le _ _).trans ?_
  rw [List.length_flatMap]
  unfold computed
  rw [show 66 = St.numRows n + (66 - St.numRows n) from by omega, ← List.range'_append_1 (m := St.numRows n), List.map_append, List.sum_append]
  simp only [List.length_map]
  omega

/-- At most one node for each target and row of the tallest tree. -/
theorem computed_targets {n : ℕ} {D : List ℕ} (hS : Sane n D) : computed n D 1 66 ≤ D.length * Nat.log2 n := by
  obtain ⟨l, k1, k2, k3⟩ := computed_above hS
  have hex : ∀ t, ∃ r, t ∈ D → InTree n r t := by
    intro t
    by_cases ht : t ∈ D
    · obtain ⟨r, hr⟩ := exists_tree (hS.lt t ht)
      exact ⟨r, fun _ => hr⟩
    · exact ⟨0, fun h => absurd h ht⟩
  choose height hh using hex
  rw [← k2]
  refine (above_heights k1 (fun r x h => (k3 r x).1 h) height hh).trans ?_
  have : ∀ x ∈ D.map height, x ≤ Nat.log2 n := by
    intro x hx
    obtain ⟨t, ht, rfl⟩ := List.mem_map.1 hx
    have h1 := Nat.ge_two_pow_of_testBit (hh t ht).1
    have h2 := hS.lt t ht
    exact (Nat.le_log2 (by omega)).2 h1
  simpa using List.sum_le_card_nsmul _ _ this

/-- Fewer inner nodes than leaves. -/
theorem computed_leaves {n : ℕ} {D : List ℕ} (hS : Sane n D) : computed n D 1 66 = 0 ∨ computed n D 1 66 < n := by
  by_cases h0 : n = 0
  · left
    have h3 := above_all hS 0 66
    rw [h0] at h3
    simp only [Nat.zero_div, Nat.zero_add] at h3
    rw [h0]
    omega
  · right
    have h2 := above_all hS 0 (Nat.log2 n)
    have h3 := computed_log hS
    have h4 : 1 ≤ n / 2 ^ (0 + Nat.log2 n) := by
      rw [Nat.zero_add, Nat.le_div_iff_mul_le (Nat.two_pow_pos _), Nat.one_mul]
      exact Nat.log2_self_le h0
    simp only [Nat.zero_add, Nat.pow_zero, Nat.div_one] at h2 h4
    omega

theorem createProofTree_spends {s : Pollard H} {proof : BatchProof H} (hS : Sane s.numLeaves proof.sorted) :
    After (createProofTree s proof) fun r => r.2.1.heap.length ≤ s.ext.length + 2 * computed s.numLeaves proof.sorted 1 66 ∧
      kids r.2.1.arena ≤ 2 * computed s.numLeaves proof.sorted 1 66 := by
  unfold createProofTree
  dsimp only
  rw [proofPositions_rows hS, ok_bind]
  have hi := inner_computed hS
  refine .bind (cptRows_spends _ _ _ _) fun r hr => ?_
  have h1 := hr.heap
  have h2 := hr.arena
  simp only at h1 h2
  have h3 : kids ([] : List VNode) = 0 := rfl
  rcases r with ⟨c1, n1⟩ | ⟨c1, n1⟩
  · simp only [stepSt] at h1 h2
    exact .pure ⟨by simp only; omega, by simp only; omega⟩
  · simp only [stepSt] at h1 h2
    exact .pure ⟨by simp only; omega, by simp only; omega⟩

end Pol
end Utreexo
