import Verif.Proof.Free
import Verif.Props.Heap
import Verif.Props.Later

/-!
# C77: destroying a pollard

`Pol.destroy` is `~Pollard` with reference counts and a limited stack (`Verif/Model/Free.lean`). `Counted` (`Verif/Spec/Refs.lean`) says which
objects are left when the destructor is called.
-/

set_option linter.unusedSectionVars false

namespace Utreexo
open Spec Equiv Pol

/-- Node number `x` of row `q` belongs to the tree with `2 ^ r` leaves of a forest with `n` leaves: there is such a tree if bit `r` of `n` is
set, and its root is the last node of row `r`. -/
def NodeIn (n r q x : ℕ) : Prop := q ≤ r ∧ n / 2 ^ r % 2 = 1 ∧ x / 2 ^ (r - q) + 1 = n / 2 ^ r

theorem nodeIn_iff {n r q x : ℕ} : NodeIn n r q x ↔ Below n r q x := by
  unfold NodeIn Below
  refine and_congr Iff.rfl ?_
  have h1 := testBit_div (n := n) (t := r)
  rw [rtOf_true, rootIdx_le]
  cases hb : n.testBit r
  · rw [hb] at h1
    simp only [Bool.false_eq_true, if_false] at h1
    simp only [Bool.false_eq_true, false_and, iff_false]
    omega
  · rw [hb] at h1
    simp only [if_true] at h1
    simp only [true_and]
    omega

section Claims
variable {H : Type} [DecidableEq H] [HashOps H]

/-- C77, in whatever order `m_roots.clear()` destroys the roots: see `C77_destroy`. -/
theorem C77_order (F : RamForest H) (st : List (UndoBatch H × RamForest H)) (p : Pollard H) (h : Sync F st p) (S : ℕ → Prop)
    (hS : Counted p S) (objs : List ℕ) (hnd : objs.Nodup) (hm : ∀ i, i ∈ objs ↔ S i) (R stack : ℕ) (hR : p.numLeaves < 2 ^ (R + 1))
    (hs : R + 1 ≤ stack) (os : List (Option ℕ)) (hos : os.Perm (p.roots.flatMap nodeRefs)) :
    ∃ u l, releaseAll p.ext stack (os ++ [some remember]) ⟨useCount p objs, []⟩ = .ok u ∧ u.freed.Perm objs ∧ (∀ i, u.cnt i = 0) ∧
      u.freed = l ++ [remember] := by
  have hl := (C47_freed F st p h S).1 hS
  obtain ⟨L, A, hI⟩ := h.inv
  refine destroy_ok hI.inv hI.len hS hl hnd hm (by omega) ?_ hos
  intro r q x _ hb
  have h1 := (nodeIn_iff.2 hb).2.1
  have : r < R + 1 := by
    by_contra hc
    rw [hI.inv.ph.num] at hR
    rw [Nat.div_eq_of_lt (hR.trans_le (Nat.pow_le_pow_right (by omega) (by omega)))] at h1
    omega
  omega

/-- C77: the destructor of a pollard with fewer than `2 ^ (R + 1)` leaves frees every object that is left exactly once, the one of
`m_remember` last, releases no reference to an object that is gone and never has more than `R + 1` destructors of nodes under way. -/
theorem C77_destroy (F : RamForest H) (st : List (UndoBatch H × RamForest H)) (p : Pollard H) (h : Sync F st p) (S : ℕ → Prop)
    (hS : Counted p S) (objs : List ℕ) (hnd : objs.Nodup) (hm : ∀ i, i ∈ objs ↔ S i) (R stack : ℕ) (hR : p.numLeaves < 2 ^ (R + 1))
    (hs : R + 1 ≤ stack) :
    ∃ u l, destroy stack p objs = .ok u ∧ u.freed.Perm objs ∧ (∀ i, u.cnt i = 0) ∧ u.freed = l ++ [remember] :=
  C77_order F st p h S hS objs hnd hm R stack hR hs _ (.refl _)

/-- C77: exactly how much stack the destructor takes: one call for every row from the root of a tree down to the lowest node that is
present. -/
theorem C77_exact (F : RamForest H) (st : List (UndoBatch H × RamForest H)) (p : Pollard H) (h : Sync F st p) (L : List H)
    (hL : Ram.Represents F L) (S : ℕ → Prop) (hS : Counted p S) (objs : List ℕ) (hnd : objs.Nodup) (hm : ∀ i, i ∈ objs ↔ S i) (stack : ℕ) :
    (∃ u, destroy stack p objs = .ok u) ↔
      1 ≤ stack ∧ ∀ r q x, NodeIn L.length r q x → (∃ y, Pol.read p (at' L q x) = .ok (some y)) → r - q < stack := by
  have hl := (C47_freed F st p h S).1 hS
  obtain ⟨L0, A, hI⟩ := h.inv
  obtain rfl := hL.unique hI.rep
  have e : ∀ r q x, NodeIn L.length r q x → ((∃ y, Pol.read p (at' L q x) = .ok (some y)) ↔ (A q x).isSome) := by
    intro r q x hx
    have hlt : x < L.length / 2 ^ q := by
      obtain ⟨a1, -, a3⟩ := hx
      rw [show L.length / 2 ^ r = L.length / 2 ^ q / 2 ^ (r - q) by
        rw [Nat.div_div_eq_div_mul, ← pow_add, show q + (r - q) = r by omega]] at a3
      exact lt_of_not_ge fun hc => absurd (Nat.div_le_div_right (c := 2 ^ (r - q)) hc) (by omega)
    rw [hI.inv.read_at hI.len hlt]
    cases A q x <;> simp
  constructor
  · rintro ⟨u, hu⟩
    obtain ⟨h1, h2⟩ := destroy_deep hI.inv hI.len hnd (fun i => (hm i).trans (hl i)) hu
    exact ⟨h1, fun r q x hx hy => h2 r q x ((e r q x hx).1 hy) (nodeIn_iff.1 hx)⟩
  · rintro ⟨h1, h2⟩
    obtain ⟨u, l, h3, -⟩ := destroy_ok hI.inv hI.len hS hl hnd hm h1
      (fun r q x hx hb => h2 r q x (nodeIn_iff.2 hb) ((e r q x (nodeIn_iff.2 hb)).2 hx)) (.refl _)
    exact ⟨u, h3⟩

/-- C77: the limit of `C77_destroy` is reached by every pollard that remembers all of its at least `2 ^ R` leaves. -/
theorem C77_sharp (F : RamForest H) (st : List (UndoBatch H × RamForest H)) (p : Pollard H) (h : Sync F st p) (S : ℕ → Prop)
    (hS : Counted p S) (objs : List ℕ) (hnd : objs.Nodup) (hm : ∀ i, i ∈ objs ↔ S i) (R : ℕ) (hR : 2 ^ R ≤ p.numLeaves)
    (hR' : p.numLeaves < 2 ^ (R + 1)) (hall : numCachedLeaves p = p.numLeaves) (stack : ℕ) (hs : stack ≤ R) :
    destroy stack p objs = .error .ub := by
  obtain ⟨L, A, hI⟩ := h.inv
  have hn := hI.len
  have hnum := hI.inv.ph.num
  have hc := hI.inv.ph.numCached_ok hn
  rw [hall, hnum] at hc
  have hall' : ∀ x < L.length, kidc p.ext (rtOf L.length) A 0 x = true := by
    have := (List.countP_eq_length (p := kidc p.ext (rtOf L.length) A 0) (l := List.range L.length)).1 (by rw [← hc, List.length_range])
    exact fun x hx => this x (List.mem_range.2 hx)
  rw [hnum] at hR hR'
  have hpos := Nat.two_pow_pos R
  have hA : (A 0 0).isSome := by
    by_cases h1 : rtOf L.length 0 0 = true
    · exact hI.inv.ph.shape.root _ _ h1
    · have hp := sib_in (n := L.length) (r := 0) (y := 0) (by rw [pow_zero, Nat.div_one]; omega) (by simpa using h1)
      have h2 : 1 < L.length / 2 ^ 0 := kid_in hp (c := 1) (by omega)
      obtain ⟨a, ha, -⟩ := Flag.holder (hall' 1 (by simpa using h2))
      rw [kid_holder hp (c := 1) (by omega)] at ha
      have ha' : A 0 0 = some a := ha
      rw [ha']; rfl
  obtain ⟨a, ha⟩ := Option.isSome_iff_exists.1 hA
  have hdiv : L.length / 2 ^ R = 1 := by
    rw [pow_succ] at hR'
    exact Nat.div_eq_of_lt_le (by omega) (by omega)
  have hin : NodeIn L.length R 0 0 := ⟨by omega, by rw [hdiv], by rw [hdiv, Nat.zero_div]⟩
  cases hd : destroy stack p objs with
  | ok u =>
    have := ((C77_exact F st p h L hI.rep S hS objs hnd hm stack).1 ⟨u, hd⟩).2 R 0 0 hin
      ⟨_, by rw [hI.inv.read_at hn (by rw [pow_zero, Nat.div_one]; omega), ha]; rfl⟩
    omega
  | error f => rw [releaseAll_error p.ext stack _ _ _ hd]

/-- C77: `use_count()` of the nodes: a root is held by `m_node` and `m_sibling` of its `Pollard::Node`, every other node by one niece
pointer. -/
theorem C77_count (F : RamForest H) (st : List (UndoBatch H × RamForest H)) (p : Pollard H) (h : Sync F st p) (S : ℕ → Prop)
    (hS : Counted p S) (objs : List ℕ) (hnd : objs.Nodup) (hm : ∀ i, i ∈ objs ↔ S i) (i : ℕ) (hi : S i) (h0 : i ≠ remember) :
    (Handle p i → useCount p objs i = 2) ∧ (¬ Handle p i → useCount p objs i = 1) := by
  have hl := (C47_freed F st p h S).1 hS
  obtain ⟨L, A, hI⟩ := h.inv
  rcases (hI.inv.live hI.len).1 ((hl i).1 hi) with rfl | ⟨q, x, hx⟩
  · exact absurd rfl h0
  · rw [hI.inv.useCount hI.len hnd (fun i => (hm i).trans (hl i)) hx, hI.inv.ph.handle hI.len]
    constructor
    · rintro (h1 | ⟨r, y, h1, h2⟩)
      · exact absurd h1 h0
      · obtain ⟨rfl, rfl⟩ := hI.inv.ph.shape.inj _ _ _ _ _ h2 hx
        rw [if_pos h1]
    · intro h1
      rw [if_neg]
      intro hc
      exact h1 (.inr ⟨q, x, hc, hx⟩)

/-- C77: `m_remember.use_count() - 1`, which the code returns, is the `NumCachedLeaves` of the model. -/
theorem C77_remember (F : RamForest H) (st : List (UndoBatch H × RamForest H)) (p : Pollard H) (h : Sync F st p) (S : ℕ → Prop)
    (hS : Counted p S) (objs : List ℕ) (hnd : objs.Nodup) (hm : ∀ i, i ∈ objs ↔ S i) :
    useCount p objs remember = numCachedLeaves p + 1 := by
  obtain ⟨l, l1, l2, l3⟩ := C47_leaves F st p h S hS
  obtain ⟨L, A, hI⟩ := h.inv
  have hh : (handles p).count (some remember) = 1 := by
    rw [hI.inv.ph.handles_count, if_pos rfl]
    rw [List.count_eq_zero.2]
    intro hc
    obtain ⟨e, -, he⟩ := List.mem_map.1 hc
    exact (hI.inv.ph.shape.bnd _ _ _ he).1 rfl
  unfold useCount
  rw [hh, l3]
  have e : l.toFinset = (objs.toFinset ×ˢ ({false, true} : Finset Bool)).filter fun e =>
      (p.ext[e.1]?.bind fun x => if e.2 then x.n1 else x.n0) = some remember := by
    ext ⟨j, b⟩
    rw [List.mem_toFinset, l2, Finset.mem_filter, Finset.mem_product, List.mem_toFinset, hm]
    unfold Mark
    simp only [Finset.mem_insert, Finset.mem_singleton]
    constructor
    · rintro ⟨h1, x, h2, h3⟩
      exact ⟨⟨h1, by cases b <;> simp⟩, by rw [h2]; exact h3⟩
    · rintro ⟨⟨h1, -⟩, h2⟩
      refine ⟨h1, ?_⟩
      cases hx : p.ext[j]? with
      | none => rw [hx] at h2; cases h2
      | some x => rw [hx] at h2; exact ⟨x, rfl, h2⟩
  rw [← List.toFinset_card_of_nodup l1, e, Finset.card_filter, Finset.sum_product, List.sum_toFinset _ hnd, Nat.add_comm]
  congr 2
  apply List.map_congr_left
  intro j _
  rw [Finset.sum_pair (by simp)]
  unfold refsFrom
  cases p.ext[j]? with
  | none => simp
  | some x => simp

end Claims

/-! ## Concrete cases -/

section Examples
attribute [local instance] toyOps

/-- The objects of a small pollard that are in reach. -/
def reach (p : Pollard ℕ) : List ℕ :=
  let step := fun l : List ℕ => (List.range p.ext.length).filter fun i =>
    l.contains i || (handles p).contains (some i) || l.any fun j => 0 < refsFrom p.ext j i
  step (step (step (step (step []))))

/-- The objects freed in this order by the destructor of a pollard with `n` leaves that remembers the leaves `l`, if there is room for `stack`
calls. -/
def freedOf (n : ℕ) (l : List ℕ) (stack : ℕ) : Res (List ℕ) :=
  toyAfter [rememberSome n l] fun _ p => (destroy stack p (reach p)).map Use.freed

/-- A pollard that remembers two of eight leaves has ten objects: four calls are enough to free them, three are not. Its roots alone
need one call. Of eleven leaves the tenth is in a tree of two, so that two calls are enough. -/
example : freedOf 8 [2, 5] 4 = .ok [8, 9, 13, 7, 4, 5, 3, 14, 15, 0] ∧ freedOf 8 [2, 5] 3 = .error .ub ∧ freedOf 8 [] 1 = .ok [15, 0] ∧
    freedOf 11 [9] 2 = .ok [15, 16, 17, 18, 19, 0] ∧ freedOf 11 [9] 1 = .error .ub ∧ freedOf 0 [] 1 = .ok [0] ∧ freedOf 0 [] 0 = .error .ub := by
  decide +kernel

/-- The hypotheses of the theorems: a set that reference counting may have left, its objects in a list. -/
example (F : RamForest ℕ) (st : List (UndoBatch ℕ × RamForest ℕ)) (p : Pollard ℕ) (h : Sync F st p) :
    ∃ (S : ℕ → Prop) (objs : List ℕ), Counted p S ∧ objs.Nodup ∧ ∀ i, i ∈ objs ↔ S i := by
  have hS := live_counted p
  obtain ⟨l, l1, l2, -⟩ := C47_nodes F st p h _ hS
  refine ⟨Live p, remember :: l, hS, List.nodup_cons.2 ⟨fun hc => ((l2 _).1 hc).2 rfl, l1⟩, fun i => ?_⟩
  rw [List.mem_cons, l2]
  constructor
  · rintro (rfl | h1)
    · exact .handle (.inl rfl)
    · exact h1.1
  · intro hl
    by_cases h0 : i = remember
    · exact .inl h0
    · exact .inr ⟨hl, h0⟩

end Examples

end Utreexo
