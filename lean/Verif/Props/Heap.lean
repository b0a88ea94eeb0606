import Verif.Props.Memory
import Verif.Proof.PolLive
import Mathlib.Logic.Relation

/-!
# The objects of a pollard are freed

C47 (no object leaks, and the counters count the objects that are left).
-/

set_option linter.unusedSectionVars false

namespace Utreexo
open Spec Equiv Pol

variable {H : Type} [DecidableEq H] [HashOps H]

/-! ## C47: no leaks -/

/-- C47: after every history there is no cycle of references, not even among the objects that are out of reach. -/
theorem C47_acyclic (F : RamForest H) (st : List (UndoBatch H × RamForest H)) (p : Pollard H) (h : Sync F st p) (i : ℕ) :
    ¬ Relation.TransGen (Ref p) i i := by
  obtain ⟨L, A, hI⟩ := h.inv
  obtain ⟨rk, -, -, r2⟩ := hI.inv.ph.shape.rank
  have key : ∀ i j, Relation.TransGen (Ref p) i j → rk j < rk i := by
    intro i j hij
    induction hij with
    | single h1 =>
      obtain ⟨b, hb, h2⟩ := ref_iff.1 h1
      have := (r2 _ b _ hb h2).2
      omega
    | tail _ h1 ih =>
      obtain ⟨b, hb, h2⟩ := ref_iff.1 h1
      have := (r2 _ b _ hb h2).2
      omega
  intro hc
  have := key i i hc
  omega

/-- The reachable objects are a fixed point of reference counting. -/
theorem live_counted (p : Pollard H) : Counted p (Live p) := by
  intro i
  constructor
  · intro h
    cases h with
    | handle h => exact .inl h
    | ref h1 h2 => exact .inr ⟨_, h1, h2⟩
  · rintro (h | ⟨j, h1, h2⟩)
    · exact .handle h
    · exact .ref h1 h2

/-- C47: after every history the objects kept by reference counting are exactly those that can be reached from the
pollard. -/
theorem C47_freed (F : RamForest H) (st : List (UndoBatch H × RamForest H)) (p : Pollard H) (h : Sync F st p) (S : ℕ → Prop) :
    Counted p S ↔ ∀ i, S i ↔ Live p i := by
  constructor
  · intro hS i
    constructor
    · obtain ⟨L, A, hI⟩ := h.inv
      obtain ⟨rk, -, -, r2⟩ := hI.inv.ph.shape.rank
      -- ranks of objects are bounded
      obtain ⟨M, hM⟩ : ∃ M, ∀ j, j < p.ext.length → rk j ≤ M :=
        ⟨((List.range p.ext.length).map rk).sum, fun j hj => List.single_le_sum (by simp) _ (List.mem_map_of_mem (List.mem_range.2 hj))⟩
      have key : ∀ k i, M ≤ rk i + k → S i → Live p i := by
        intro k
        induction k with
        | zero =>
          intro i hi hs
          rcases (hS i).1 hs with h1 | ⟨j, h1, h2⟩
          · exact .handle h1
          · exfalso
            have hj : j < p.ext.length := by
              obtain ⟨x, hx, -⟩ := h2
              exact lt_of_get hx
            obtain ⟨b, hb, h3⟩ := ref_iff.1 h2
            have := (r2 _ b _ hb h3).2
            have := hM j hj
            omega
        | succ k ih =>
          intro i hi hs
          rcases (hS i).1 hs with h1 | ⟨j, h1, h2⟩
          · exact .handle h1
          · obtain ⟨b, hb, h3⟩ := ref_iff.1 h2
            have := (r2 _ b _ hb h3).2
            exact .ref (ih j (by omega) h1) h2
      exact key M i (by omega)
    · intro hl
      induction hl with
      | handle h1 => exact (hS _).2 (.inl h1)
      | ref _ h2 ih => exact (hS _).2 (.inr ⟨_, ih, h2⟩)
  · intro hS i
    rw [hS, live_counted p i]
    simp only [hS]

/-- C47: `CountNodes` is the number of objects kept, apart from `m_remember`. -/
theorem C47_nodes (F : RamForest H) (st : List (UndoBatch H × RamForest H)) (p : Pollard H) (h : Sync F st p) (S : ℕ → Prop)
    (hS : Counted p S) : ∃ l : List ℕ, l.Nodup ∧ (∀ i, i ∈ l ↔ S i ∧ i ≠ remember) ∧ countNodes p = l.length := by
  rw [C47_freed F st p h] at hS
  obtain ⟨L, A, hI⟩ := h.inv
  have hn := hI.len
  have hsh := hI.inv.ph.shape
  refine ⟨(((forestSet L.length).filter fun e => (A e.1 e.2).isSome).image fun e => (A e.1 e.2).getD 0).toList,
    Finset.nodup_toList _, fun i => ?_, ?_⟩
  · rw [Finset.mem_toList, Finset.mem_image, hS, hI.inv.live hn]
    constructor
    · rintro ⟨⟨r, x⟩, h1, h2⟩
      rw [Finset.mem_filter] at h1
      obtain ⟨q, hq⟩ := Option.isSome_iff_exists.1 h1.2
      simp only at hq h2
      rw [hq] at h2
      simp only [Option.getD_some] at h2
      subst h2
      exact ⟨.inr ⟨r, x, hq⟩, (hsh.bnd _ _ _ hq).1⟩
    · rintro ⟨rfl | ⟨r, x, hx⟩, h0⟩
      · exact absurd rfl h0
      · refine ⟨(r, x), ?_, by simp [hx]⟩
        rw [Finset.mem_filter]
        refine ⟨(mem_forestSet hn).2 ?_, by simp [hx]⟩
        by_contra hc
        rw [hI.inv.out _ _ hc] at hx; simp at hx
  · rw [Finset.length_toList, Finset.card_image_of_injOn, card_forestSet A hsh.root, hI.inv.ph.countNodes_ok]
    · congr 1
      apply List.map_congr_left
      intro e he
      exact (cntA_eq hsh e.1 e.2 (rootCoords_in he).1).1 (mem_rootCoords he)
    · rintro ⟨r, x⟩ h1 ⟨r', x'⟩ h2 he
      rw [Finset.mem_coe, Finset.mem_filter] at h1 h2
      obtain ⟨a, ha⟩ := Option.isSome_iff_exists.1 h1.2
      obtain ⟨b, hb⟩ := Option.isSome_iff_exists.1 h2.2
      simp only at ha hb he
      rw [ha, hb] at he
      simp only [Option.getD_some] at he
      subst he
      obtain ⟨rfl, rfl⟩ := hsh.inj _ _ _ _ _ ha hb
      rfl

/-- C47: `NumCachedLeaves` is the number of references to `m_remember` held by objects that are kept, so that it is one
less than its reference count. -/
theorem C47_leaves (F : RamForest H) (st : List (UndoBatch H × RamForest H)) (p : Pollard H) (h : Sync F st p) (S : ℕ → Prop)
    (hS : Counted p S) : ∃ l : List (ℕ × Bool), l.Nodup ∧ (∀ e, e ∈ l ↔ Mark p S e) ∧ numCachedLeaves p = l.length := by
  rw [C47_freed F st p h] at hS
  obtain ⟨L, A, hI⟩ := h.inv
  have hn := hI.len
  have hsh := hI.inv.ph.shape
  refine ⟨((List.range L.length).filter fun x => kidc p.ext (rtOf L.length) A 0 x).map
    fun x => ((holder (rtOf L.length) A 0 x).getD 0, false), ?_, ?_, ?_⟩
  · rw [List.nodup_map_iff_inj_on (List.Nodup.filter _ List.nodup_range)]
    intro x hx y hy he
    rw [List.mem_filter] at hx hy
    obtain ⟨a, ha, -⟩ := Flag.holder hx.2
    obtain ⟨b, hb, -⟩ := Flag.holder hy.2
    simp only [ha, hb, Option.getD_some, Prod.mk.injEq, and_true] at he
    subst he
    exact (hsh.holder_inj ha hb).2
  · rintro ⟨j, b⟩
    rw [List.mem_map]
    unfold Mark
    simp only [hS, hI.inv.live hn]
    constructor
    · rintro ⟨x, hx, he⟩
      rw [List.mem_filter] at hx
      obtain ⟨a, ha, hf⟩ := Flag.holder hx.2
      simp only [ha, Option.getD_some, Prod.mk.injEq] at he
      obtain ⟨rfl, rfl⟩ := he
      obtain ⟨i, hi⟩ := holder_addr ha
      obtain ⟨z, hz⟩ := hsh.get hi
      refine ⟨.inr ⟨0, i, hi⟩, z, hz, ?_⟩
      have hl := (hsh.leaf i).2
      rw [hi] at hl
      rcases hl with e | e
      · rw [e] at hf; simp at hf
      · rw [nz_some hz] at e
        exact e
    · rintro ⟨hl, z, hz, he⟩
      have hnz : nz p.ext (some j) (if b then 1 else 0) = some 0 := by
        rw [nz_some hz]
        cases b <;> exact he
      obtain ⟨rk, r0, r1, r2⟩ := hsh.rank
      have hrk := (r2 j _ 0 (by cases b <;> simp) hnz).2
      rcases hl with rfl | ⟨r, i, hi⟩
      · omega
      · have hr : r = 0 := by
          have := r1 _ _ _ hi
          omega
        subst hr
        have hleaf := (hsh.leaf i).1
        rw [hi] at hleaf
        have hb : b = false := by
          cases b with
          | false => rfl
          | true =>
            have e : nz p.ext (some j) 1 = some 0 := hnz
            rw [hleaf] at e; simp at e
        subst hb
        have hin : i < L.length / 2 ^ 0 := by
          by_contra hc
          rw [hI.inv.out _ _ hc] at hi; simp at hi
        have e0 : nz p.ext (some j) 0 = some 0 := hnz
        by_cases hrt : rtOf L.length 0 i = true
        · refine ⟨i, ?_, by simp [holder_root hrt, hi]⟩
          rw [List.mem_filter, List.mem_range]
          refine ⟨by simpa using hin, ?_⟩
          simp only [kidc]
          rw [holder_root hrt, hi, e0]; rfl
        · have hp := sib_in hin (by simpa using hrt)
          have hs : i ^^^ 1 < L.length / 2 ^ 0 := kid_in hp (sb_div i)
          have hh : holder (rtOf L.length) A 0 (i ^^^ 1) = some j := by
            rw [kid_holder hp (sb_div i), sb_sb, hi]
          refine ⟨i ^^^ 1, ?_, by simp [hh]⟩
          rw [List.mem_filter, List.mem_range]
          refine ⟨by simpa using hs, ?_⟩
          simp only [kidc]
          rw [hh, e0]; rfl
  · rw [List.length_map, hI.inv.ph.numCached_ok hn, List.countP_eq_length_filter]

/-- C47: the objects a pollard of fewer than `2 ^ (R + 1)` leaves keeps alive: `m_remember`, its roots, and at most `2 * R`
for every remembered leaf. -/
theorem C47_memory (F : RamForest H) (st : List (UndoBatch H × RamForest H)) (p : Pollard H) (h : Sync F st p) (S : ℕ → Prop)
    (hS : Counted p S) (R : ℕ) (hR : p.numLeaves < 2 ^ (R + 1)) :
    ∃ rs, Pol.roots p = .ok rs ∧ ∃ l : List ℕ, l.Nodup ∧ (∀ i, i ∈ l ↔ S i) ∧ l.length ≤ 1 + rs.length + 2 * R * numCachedLeaves p := by
  obtain ⟨rs, e1, -, e3⟩ := C41_memory F st p h R hR
  obtain ⟨l, l1, l2, l3⟩ := C47_nodes F st p h S hS
  refine ⟨rs, e1, remember :: l, ?_, ?_, ?_⟩
  · rw [List.nodup_cons]
    exact ⟨fun hc => ((l2 _).1 hc).2 rfl, l1⟩
  · intro i
    rw [List.mem_cons, l2]
    constructor
    · rintro (rfl | h1)
      · exact (hS _).2 (.inl (.inl rfl))
      · exact h1.1
    · intro hs
      by_cases h0 : i = remember
      · exact .inl h0
      · exact .inr ⟨hs, h0⟩
  · rw [List.length_cons]
    omega

/-! ## Concrete cases -/

section Examples

attribute [local instance] toyOps

/-- The histories of `toyBlocks` leave objects behind: after the last block 24 objects have been allocated, of which
`m_remember` and two more are in reach. -/
example : toyAfter toyBlocks (fun _ p => .ok (p.ext.length, countNodes p, numCachedLeaves p)) = .ok (24, 2, 1) := by
  decide +kernel

/-- Two objects that refer to each other. -/
def cyclic : Pollard ℕ := Acc.mk 0 [] [] [INode.mk 0 none none, INode.mk 5 (some 2) none, INode.mk 6 none (some 1)]

/-- Without `C47_acyclic` the claim of `C47_freed` fails: of two objects that refer to each other reference counting keeps
both or none. -/
example : ∃ (p : Pollard ℕ) (S T : ℕ → Prop), Counted p S ∧ Counted p T ∧ S 1 ∧ ¬ T 1 ∧ Relation.TransGen (Ref p) 1 1 := by
  have ref : ∀ i j, Ref cyclic i j ↔ (i = 1 ∧ j = 2) ∨ (i = 2 ∧ j = 1) := by
    intro i j
    unfold Ref cyclic
    match i with
    | 0 => simp
    | 1 => simp [eq_comm]
    | 2 => simp [eq_comm]
    | n + 3 => simp
  have handle : ∀ i, Handle cyclic i ↔ i = 0 := by
    intro i; simp [Handle, remember, cyclic]
  refine ⟨cyclic, fun i => i ≤ 2, fun i => i = 0, fun i => ?_, fun i => ?_, by omega, by omega, .tail (.single ((ref 1 2).2 (by simp))) ((ref 2 1).2 (by simp))⟩
  · rw [handle]
    simp only [ref]
    constructor
    · intro h
      rcases Nat.lt_or_ge i 1 with h' | h'
      · left; omega
      · right
        exact ⟨3 - i, by omega, by omega⟩
    · rintro (rfl | ⟨j, h1, h2⟩) <;> omega
  · rw [handle]
    simp only [ref]
    constructor
    · exact .inl
    · rintro (rfl | ⟨j, h1, h2⟩) <;> omega

end Examples

end Utreexo
