import Verif.Proof.PolLive
import Verif.Model.Free
import Mathlib.Data.Finset.Max
import Mathlib.Algebra.BigOperators.Group.Finset.Piecewise

/-! # Releasing references -/

set_option linter.unusedSectionVars false

namespace Utreexo
open Spec Equiv

variable {H : Type} [DecidableEq H] [HashOps H]

namespace Pol

/-- The counts are right: `P` are the references that are still to be released and `alive` the objects that have not been freed. -/
structure Counts (heap : List (INode H)) (u : Use) (P : List (Option ℕ)) (alive : Finset ℕ) : Prop where
  cnt : ∀ i, u.cnt i = P.count (some i) + ∑ j ∈ alive, refsFrom heap j i
  mem : ∀ i, i ∈ alive ↔ 0 < u.cnt i
  bnd : ∀ i ∈ alive, i < heap.length

theorem refsFrom_some {heap : List (INode H)} {j : ℕ} {x : INode H} (h : heap[j]? = some x) (i : ℕ) :
    refsFrom heap j i = (if x.n0 = some i then 1 else 0) + (if x.n1 = some i then 1 else 0) := by
  unfold refsFrom; rw [h]

theorem refsFrom_pos {p : Pollard H} {j i : ℕ} : 0 < refsFrom p.ext j i ↔ Ref p j i := by
  unfold refsFrom Ref
  cases h : p.ext[j]? with
  | none => simp
  | some x =>
    simp only [Option.some.injEq, exists_eq_left']
    by_cases h0 : x.n0 = some i <;> by_cases h1 : x.n1 = some i <;> simp [h0, h1]

theorem count_cons_opt (o : Option ℕ) (P : List (Option ℕ)) (i : ℕ) :
    (o :: P).count (some i) = P.count (some i) + if o = some i then 1 else 0 := by
  rw [List.count_cons]
  simp

theorem Counts.none {heap : List (INode H)} {u : Use} {P : List (Option ℕ)} {alive : Finset ℕ} (h : Counts heap u (none :: P) alive) :
    Counts heap u P alive :=
  ⟨fun i => by rw [h.cnt i, count_cons_opt]; simp, h.mem, h.bnd⟩

theorem Counts.perm {heap : List (INode H)} {u : Use} {P Q : List (Option ℕ)} {alive : Finset ℕ} (h : Counts heap u P alive) (hp : P.Perm Q) :
    Counts heap u Q alive :=
  ⟨fun i => by rw [h.cnt i, hp.count_eq], h.mem, h.bnd⟩

theorem Counts.drop {heap : List (INode H)} {u : Use} {P : List (Option ℕ)} {alive : Finset ℕ} {i : ℕ} (h : Counts heap u (some i :: P) alive)
    (hc : 1 < u.cnt i) : Counts heap (u.drop i) P alive := by
  refine ⟨fun j => ?_, fun j => ?_, h.bnd⟩
  · have := h.cnt j
    rw [count_cons_opt] at this
    simp only [Use.drop]
    by_cases hj : j = i
    · subst hj; simp at this; simp; omega
    · rw [if_neg (by simpa using fun e => hj e.symm)] at this
      rw [if_neg hj]; omega
  · rw [h.mem]
    simp only [Use.drop]
    split
    · subst_vars; omega
    · rfl

theorem Counts.free {heap : List (INode H)} {u : Use} {P : List (Option ℕ)} {alive : Finset ℕ} {i : ℕ} {x : INode H}
    (h : Counts heap u (some i :: P) alive) (hc : u.cnt i = 1) (hx : heap[i]? = some x) :
    Counts heap (u.drop i) (x.n0 :: x.n1 :: P) (alive.erase i) := by
  have hi : i ∈ alive := (h.mem i).2 (by omega)
  refine ⟨fun j => ?_, fun j => ?_, fun j hj => h.bnd j (Finset.mem_of_mem_erase hj)⟩
  · have := h.cnt j
    rw [count_cons_opt, ← Finset.add_sum_erase _ _ hi, refsFrom_some hx] at this
    rw [count_cons_opt, count_cons_opt]
    simp only [Use.drop]
    by_cases hj : j = i
    · subst hj; simp only [if_true] at this ⊢; omega
    · rw [if_neg (by simpa using fun e => hj e.symm)] at this
      rw [if_neg hj]; omega
  · rw [Finset.mem_erase, h.mem]
    simp only [Use.drop]
    split
    · subst_vars; omega
    · simp [*]

/-- What releasing references does. -/
def Released (u u' : Use) (alive alive' : Finset ℕ) : Prop :=
  alive' ⊆ alive ∧ ∃ l : List ℕ, u'.freed = u.freed ++ l ∧ l.Nodup ∧ ∀ i, i ∈ l ↔ i ∈ alive ∧ i ∉ alive'

theorem Released.refl {u u' : Use} (alive : Finset ℕ) (h : u'.freed = u.freed) : Released u u' alive alive :=
  ⟨fun _ h => h, [], by simp [h], List.nodup_nil, by simp⟩

theorem Released.trans {u u1 u2 : Use} {a a1 a2 : Finset ℕ} (h1 : Released u u1 a a1) (h2 : Released u1 u2 a1 a2) : Released u u2 a a2 := by
  obtain ⟨s1, l1, e1, n1, m1⟩ := h1
  obtain ⟨s2, l2, e2, n2, m2⟩ := h2
  refine ⟨fun i hi => s1 (s2 hi), l1 ++ l2, by rw [e2, e1, List.append_assoc], ?_, fun i => ?_⟩
  · rw [List.nodup_append']
    refine ⟨n1, n2, fun i h1 h2 => ?_⟩
    exact ((m1 i).1 h1).2 ((m2 i).1 h2).1
  · rw [List.mem_append, m1, m2]
    have := @s1 i
    have := @s2 i
    tauto

theorem release_ok {heap : List (INode H)} {rk : ℕ → ℕ} {e : ℕ} :
    ∀ (stack : ℕ) (u : Use) (o : Option ℕ) (P : List (Option ℕ)) (alive : Finset ℕ), Counts heap u (o :: P) alive →
      (∀ j ∈ alive, ∀ i, 0 < refsFrom heap j i → rk i < rk j) →
      (∀ i ∈ alive, rk i + e = 0 → some i ∈ P) → (∀ i, o = some i → rk i + e ≤ stack) →
      ∃ u' alive', release heap stack u o = .ok u' ∧ Counts heap u' P alive' ∧ Released u u' alive alive' := by
  intro stack
  induction stack with
  | zero =>
    intro u o P alive h hrk hz hs
    cases o with
    | none => exact ⟨u, alive, by rw [release], h.none, .refl _ rfl⟩
    | some i =>
      have h0 := hs i rfl
      have hc := h.cnt i
      rw [count_cons_opt] at hc
      simp only [if_true] at hc
      have hm := hz i ((h.mem i).2 (by omega)) (by omega)
      have := List.count_pos_iff.2 hm
      refine ⟨u.drop i, alive, ?_, h.drop (by omega), .refl _ rfl⟩
      rw [release, if_neg (by omega)]
  | succ stack ih =>
    intro u o P alive h hrk hz hs
    cases o with
    | none => exact ⟨u, alive, by rw [release], h.none, .refl _ rfl⟩
    | some i =>
      have hc := h.cnt i
      rw [count_cons_opt] at hc
      simp only [if_true] at hc
      by_cases h1 : u.cnt i = 1
      · have hi := (h.mem i).2 (by omega)
        obtain ⟨x, hx⟩ : ∃ x, heap[i]? = some x := ⟨_, List.getElem?_eq_getElem (h.bnd i hi)⟩
        have k1 := h.free h1 hx
        have hk : ∀ k, x.n0 = some k ∨ x.n1 = some k → rk k + e ≤ stack := by
          intro k hk
          have := hrk i hi k (by rw [refsFrom_some hx]; rcases hk with e | e <;> simp [e])
          have := hs i rfl
          omega
        obtain ⟨u1, a1, r1, c1, f1⟩ := ih _ _ _ _ k1 (fun j hj => hrk j (Finset.mem_of_mem_erase hj))
          (fun j hj h0 => List.mem_cons_of_mem _ (hz j (Finset.mem_of_mem_erase hj) h0)) (fun k hk' => hk k (.inl hk'))
        obtain ⟨u2, a2, r2, c2, f2⟩ := ih _ _ _ _ c1 (fun j hj => hrk j (Finset.mem_of_mem_erase (f1.1 hj)))
          (fun j hj h0 => hz j (Finset.mem_of_mem_erase (f1.1 hj)) h0) (fun k hk' => hk k (.inr hk'))
        obtain ⟨s, l, e1, n1, m1⟩ := f1.trans f2
        refine ⟨{ u2 with freed := u2.freed ++ [i] }, a2, ?_, ⟨c2.cnt, c2.mem, c2.bnd⟩, fun j hj => Finset.mem_of_mem_erase (s hj), l ++ [i], ?_, ?_, fun j => ?_⟩
        · rw [release, if_neg (by omega), if_neg (by omega), show vecGet heap i = .ok x from by unfold vecGet; rw [hx]]
          simp only [ok_bind, r1, r2]
          rfl
        · simp only [e1, Use.drop, List.append_assoc]
        · rw [List.nodup_append']
          refine ⟨n1, by simp, fun j g1 g2 => ?_⟩
          rw [List.mem_singleton] at g2
          subst g2
          exact Finset.notMem_erase _ _ ((m1 j).1 g1).1
        · rw [List.mem_append, m1, List.mem_singleton, Finset.mem_erase]
          constructor
          · rintro (⟨⟨-, h2⟩, h3⟩ | rfl)
            · exact ⟨h2, h3⟩
            · exact ⟨hi, fun hc => Finset.notMem_erase _ _ (s hc)⟩
          · rintro ⟨h2, h3⟩
            by_cases hj : j = i
            · exact .inr hj
            · exact .inl ⟨⟨hj, h2⟩, h3⟩
      · refine ⟨u.drop i, alive, ?_, h.drop (by omega), .refl _ rfl⟩
        rw [release, if_neg (by omega), if_pos h1]

theorem releaseAll_ok {heap : List (INode H)} {rk : ℕ → ℕ} {e : ℕ} (stack : ℕ) :
    ∀ (os : List (Option ℕ)) (u : Use) (P : List (Option ℕ)) (alive : Finset ℕ), Counts heap u (os ++ P) alive →
      (∀ j ∈ alive, ∀ i, 0 < refsFrom heap j i → rk i < rk j) →
      (∀ i ∈ alive, rk i + e = 0 → some i ∈ P) → (∀ i, some i ∈ os → rk i + e ≤ stack) →
      ∃ u' alive', releaseAll heap stack os u = .ok u' ∧ Counts heap u' P alive' ∧ Released u u' alive alive' := by
  intro os
  induction os with
  | nil => intro u P alive h _ _ _; exact ⟨u, alive, rfl, h, .refl _ rfl⟩
  | cons o os ih =>
    intro u P alive h hrk hz hs
    obtain ⟨u1, a1, r1, c1, f1⟩ := release_ok stack u o (os ++ P) alive h hrk (fun i hi h0 => List.mem_append_right _ (hz i hi h0))
      (fun i hi => hs i (by simp [hi]))
    obtain ⟨u2, a2, r2, c2, f2⟩ := ih u1 P a1 c1 (fun j hj => hrk j (f1.1 hj)) (fun i hi h0 => hz i (f1.1 hi) h0) (fun i hi => hs i (by simp [hi]))
    exact ⟨u2, a2, by rw [releaseAll, r1, ok_bind, r2], c2, f1.trans f2⟩

theorem releaseAll_append (heap : List (INode H)) (stack : ℕ) : ∀ (os os' : List (Option ℕ)) (u : Use),
    releaseAll heap stack (os ++ os') u = (releaseAll heap stack os u).bind fun u' => releaseAll heap stack os' u' := by
  intro os
  induction os with
  | nil => intro os' u; rfl
  | cons o os ih =>
    intro os' u
    rw [List.cons_append, releaseAll, releaseAll]
    cases release heap stack u o with
    | error f => rfl
    | ok u1 => exact ih os' u1

/-- Without references from outside nothing is left. -/
theorem Counts.empty {heap : List (INode H)} {rk : ℕ → ℕ} {u : Use} {alive : Finset ℕ}
    (h : Counts heap u [] alive) (hrk : ∀ j ∈ alive, ∀ i, 0 < refsFrom heap j i → rk i < rk j) : alive = ∅ := by
  by_contra hne
  obtain ⟨i, hi, hmax⟩ := Finset.exists_max_image alive rk (Finset.nonempty_of_ne_empty hne)
  have h1 := (h.mem i).1 hi
  rw [h.cnt i, List.count_nil, Nat.zero_add] at h1
  obtain ⟨j, hj, h2⟩ := Finset.exists_ne_zero_of_sum_ne_zero (by omega : ∑ j ∈ alive, refsFrom heap j i ≠ 0)
  have := hrk j hj i (by omega)
  have := hmax j hj
  omega

theorem mem_handles {p : Pollard H} {i : ℕ} : some i ∈ handles p ↔ Handle p i := by
  unfold handles Handle nodeRefs
  simp only [List.mem_append, List.mem_flatMap, List.mem_singleton, Option.some.injEq, List.mem_cons, List.not_mem_nil, or_false]
  constructor
  · rintro (⟨r, hr, e, he, h⟩ | h)
    · exact .inr ⟨r, hr, e, he, h.imp Eq.symm Eq.symm⟩
    · exact .inl h
  · rintro (h | ⟨r, hr, e, he, h⟩)
    · exact .inr h
    · exact .inl ⟨r, hr, e, he, h.imp Eq.symm Eq.symm⟩

theorem counts_start (p : Pollard H) {S : ℕ → Prop} (hS : Counted p S) {objs : List ℕ} (hn : objs.Nodup) (hm : ∀ i, i ∈ objs ↔ S i)
    (hb : ∀ i, S i → i < p.ext.length) : Counts p.ext ⟨useCount p objs, []⟩ (handles p) objs.toFinset := by
  refine ⟨fun i => ?_, fun i => ?_, fun i hi => hb i ((hm i).1 (List.mem_toFinset.1 hi))⟩
  · show useCount p objs i = _
    unfold useCount
    rw [List.sum_toFinset _ hn]
  · show _ ↔ 0 < useCount p objs i
    unfold useCount
    rw [List.mem_toFinset, hm, hS i, ← mem_handles]
    have e : 0 < (objs.map fun j => refsFrom p.ext j i).sum ↔ ∃ j, S j ∧ Ref p j i := by
      rw [Nat.pos_iff_ne_zero, ne_eq, List.sum_eq_zero_iff]
      simp only [List.mem_map, forall_exists_index, and_imp, forall_apply_eq_imp_iff₂, not_forall, hm, ← refsFrom_pos,
        Nat.pos_iff_ne_zero, exists_prop]
    rw [← e, ← List.count_pos_iff]
    omega

/-! ## How often an object is referred to -/

/-- A reference leads to a child, in the tree, of the node whose children the object holds. -/
theorem Shape.ref_kid {s : Pollard H} {n : ℕ} {A : Addr} (h : Shape s.ext (rtOf n) A) (hout : ∀ r y, ¬ y < n / 2 ^ r → A r y = none)
    {q x i j b : ℕ} (hj : A (q + 1) x = some j) (hb : b < 2) (h1 : nz s.ext (some j) b = some i) :
    ∃ z, rtOf n q z = false ∧ z % 2 = b ∧ holder (rtOf n) A (q + 1) (z / 2) = some j ∧ A q z = some i := by
  have hx : x < n / 2 ^ (q + 1) := by
    by_contra hc
    rw [hout _ _ hc] at hj; simp at hj
  by_cases hrt : rtOf n (q + 1) x = true
  · have hh : holder (rtOf n) A (q + 1) x = some j := by rw [holder_root hrt, hj]
    refine ⟨2 * x + b, kid_rt hx (by omega), by omega, by rw [show (2 * x + b) / 2 = x by omega, hh], ?_⟩
    rw [h.kids q _ (kid_rt hx (by omega)), show (2 * x + b) / 2 = x by omega, show (2 * x + b) % 2 = b by omega, hh, h1]
  · have hp := sib_in hx (by simpa using hrt)
    have hs : x ^^^ 1 < n / 2 ^ (q + 1) := kid_in hp (sb_div x)
    have hh : holder (rtOf n) A (q + 1) (x ^^^ 1) = some j := by rw [kid_holder hp (sb_div x), sb_sb, hj]
    refine ⟨2 * (x ^^^ 1) + b, kid_rt hs (by omega), by omega, by rw [show (2 * (x ^^^ 1) + b) / 2 = x ^^^ 1 by omega, hh], ?_⟩
    rw [h.kids q _ (kid_rt hs (by omega)), show (2 * (x ^^^ 1) + b) / 2 = x ^^^ 1 by omega, show (2 * (x ^^^ 1) + b) % 2 = b by omega, hh, h1]

/-- Only the holder of the children of the parent refers to a node. -/
theorem Inv.ref_unique {s : Pollard H} {n : ℕ} {f : ℕ → H} {A : Addr} (h : Inv s n f A) (hn : n ≤ 2 ^ 62) {r x i j b : ℕ}
    (hi : A r x = some i) (hl : Live s j) (hb : b < 2) (h1 : nz s.ext (some j) b = some i) :
    rtOf n r x = false ∧ b = x % 2 ∧ holder (rtOf n) A (r + 1) (x / 2) = some j := by
  have hsh := h.ph.shape
  obtain ⟨rk, r0, r1, r2⟩ := hsh.rank
  have hk := (r2 _ _ _ hb h1).2
  rcases (h.live hn).1 hl with rfl | ⟨q, y, hj⟩
  · omega
  · rw [r1 _ _ _ hj, r1 _ _ _ hi] at hk
    obtain rfl : q = r + 1 := by omega
    obtain ⟨z, z1, z2, z3, z4⟩ := hsh.ref_kid h.out hj hb h1
    obtain ⟨-, rfl⟩ := hsh.inj _ _ _ _ _ hi z4
    exact ⟨z1, z2.symm, z3⟩

theorem count_flatMap_pair {α β : Type} [BEq β] [LawfulBEq β] (f g : α → β) (b : β) : ∀ l : List α,
    (l.flatMap fun a => [f a, g a]).count b = (l.map f).count b + (l.map g).count b := by
  intro l
  induction l with
  | nil => rfl
  | cons a l ih =>
    simp only [List.flatMap_cons, List.map_cons, List.count_append, ih, List.count_cons, List.count_nil]
    omega

theorem PH.handles_count {s : Pollard H} {n : ℕ} {A : Addr} {c : ℕ → ℕ → H} (h : PH s n A c) (i : ℕ) :
    (handles s).count (some i) = 2 * ((rootCoords n).map fun c => A c.1 c.2).count (some i) + if i = remember then 1 else 0 := by
  have e : s.roots.flatMap nodeRefs = s.roots.flatMap fun r => [r.e.node, r.e.sib] := by
    rw [List.flatMap_congr]
    intro r hr
    unfold nodeRefs
    rw [h.roots.up r hr]; rfl
  have e1 := h.roots.node
  have e2 := h.roots.sib
  unfold handles
  rw [e, List.count_append, count_flatMap_pair, e1, e2, List.count_singleton]
  have e3 : (if (some remember == some i) = true then 1 else 0) = if i = remember then 1 else 0 := by
    by_cases hi : i = remember
    · subst hi; simp
    · rw [if_neg hi, if_neg (by simpa using fun e => hi e.symm)]
  rw [e3]
  omega

theorem Inv.useCount {s : Pollard H} {n : ℕ} {f : ℕ → H} {A : Addr} (h : Inv s n f A) (hn : n ≤ 2 ^ 62) {objs : List ℕ} (hnd : objs.Nodup)
    (hm : ∀ i, i ∈ objs ↔ Live s i) {r x i : ℕ} (hi : A r x = some i) :
    useCount s objs i = if rtOf n r x = true then 2 else 1 := by
  have hsh := h.ph.shape
  have hi0 := (hsh.bnd _ _ _ hi).1
  unfold Pol.useCount
  rw [h.ph.handles_count, if_neg (show i ≠ remember from hi0), Nat.add_zero]
  by_cases hrt : rtOf n r x = true
  · rw [if_pos hrt]
    have c1 : ((rootCoords n).map fun c => A c.1 c.2).count (some i) = 1 := by
      apply List.count_eq_one_of_mem
      · rw [List.nodup_map_iff_inj_on (rootCoords_nodup n)]
        rintro ⟨a1, a2⟩ ha ⟨b1, b2⟩ hb he
        obtain ⟨p, hp⟩ := Option.isSome_iff_exists.1 (hsh.root _ _ (mem_rootCoords ha))
        simp only at he hp
        obtain ⟨rfl, rfl⟩ := hsh.inj _ _ _ _ _ hp (he ▸ hp)
        rfl
      · exact List.mem_map.2 ⟨(r, x), rt_mem hrt hn, hi⟩
    have c2 : (objs.map fun j => refsFrom s.ext j i).sum = 0 := by
      rw [List.sum_eq_zero_iff]
      intro k hk
      obtain ⟨j, hj, rfl⟩ := List.mem_map.1 hk
      by_contra hc
      obtain ⟨b, hb, h1⟩ := ref_iff.1 (refsFrom_pos.1 (Nat.pos_of_ne_zero hc))
      have := (h.ref_unique hn hi ((hm j).1 hj) hb h1).1
      rw [hrt] at this; cases this
    rw [c1, c2]
  · rw [if_neg hrt]
    have hrt' : rtOf n r x = false := by simpa using hrt
    have c1 : ((rootCoords n).map fun c => A c.1 c.2).count (some i) = 0 := by
      rw [List.count_eq_zero]
      intro hc
      obtain ⟨e, he, h1⟩ := List.mem_map.1 hc
      obtain ⟨h2, h3⟩ := hsh.inj _ _ _ _ _ h1 hi
      have := mem_rootCoords he
      rw [h2, h3] at this
      exact hrt this
    have hk := hsh.kids r x hrt'
    rw [hi] at hk
    obtain ⟨p, hp⟩ : ∃ p, holder (rtOf n) A (r + 1) (x / 2) = some p := by
      cases hh : holder (rtOf n) A (r + 1) (x / 2) with
      | none => rw [hh, nz_none] at hk; cases hk
      | some p => exact ⟨p, rfl⟩
    rw [hp] at hk
    obtain ⟨y, hy⟩ := holder_addr hp
    have hlive : p ∈ objs := (hm p).2 ((h.live hn).2 (.inr ⟨_, _, hy⟩))
    obtain ⟨z, hz⟩ := hsh.get hy
    have key : ∀ j ∈ objs, refsFrom s.ext j i = if j = p then 1 else 0 := by
      intro j hj
      split
      · subst_vars
        have hn0 : ∀ b, b < 2 → (INode.niece z b = some i ↔ b = x % 2) := by
          intro b hb
          rw [← nz_some hz]
          constructor
          · intro h1
            exact (h.ref_unique hn hi ((hm j).1 hlive) hb h1).2.1
          · rintro rfl; exact hk.symm
        have b0 := hn0 0 (by omega)
        have b1 := hn0 1 (by omega)
        simp only [INode.niece, if_true, Nat.one_ne_zero, if_false] at b0 b1
        rw [refsFrom_some hz]
        simp only [b0, b1]
        have : x % 2 = 0 ∨ x % 2 = 1 := by omega
        rcases this with e | e <;> simp [e]
      · by_contra hc
        obtain ⟨b, hb, h1⟩ := ref_iff.1 (refsFrom_pos.1 (Nat.pos_of_ne_zero hc))
        have := (h.ref_unique hn hi ((hm j).1 hj) hb h1).2.2
        rw [hp] at this
        injection this with this
        exact absurd this.symm ‹_›
    have c2 : (objs.map fun j => refsFrom s.ext j i).sum = 1 := by
      rw [List.map_congr_left key, ← List.sum_toFinset _ hnd, Finset.sum_ite_eq', if_pos (List.mem_toFinset.2 hlive)]
    rw [c1, c2]

/-! ## How deep the destructors go -/

/-- Node `x` of row `q` belongs to the tree whose root is in row `r`. -/
def Below (n r q x : ℕ) : Prop := q ≤ r ∧ rtOf n r (x / 2 ^ (r - q)) = true

theorem Below.unique {n r r' q x : ℕ} (h : Below n r q x) (h' : Below n r' q x) : r = r' := by
  have key : ∀ t t', Below n t q x → Below n t' q x → t < t' → False := by
    rintro t t' ⟨g1, r1⟩ ⟨g2, r2⟩ hlt
    have h3 := rtOf_in r2
    obtain ⟨-, h4⟩ := rtOf_true.1 r1
    rw [rootIdx_le] at h4
    have := root_anc (n := n) hlt
    rw [← h4, Nat.div_div_eq_div_mul, ← pow_add, show t - q + (t' - t) = t' - q by omega] at this
    omega
  rcases Nat.lt_trichotomy r r' with g | g | g
  · exact (key _ _ h h' g).elim
  · exact g
  · exact (key _ _ h' h g).elim

theorem Below.exists {n q x : ℕ} (hn : n ≤ 2 ^ 62) (hx : x < n / 2 ^ q) : ∃ r, Below n r q x := by
  have := (mem_forestSet hn).2 hx
  unfold forestSet at this
  rw [Finset.mem_biUnion] at this
  obtain ⟨⟨t, i⟩, h1, h2⟩ := this
  rw [mem_treeSet] at h2
  simp only at h2
  refine ⟨t, h2.1, ?_⟩
  rw [h2.2]
  exact mem_rootCoords (List.mem_toFinset.1 h1)

theorem Below.up {n r q x y : ℕ} (h : Below n r q x) (hr : rtOf n q x = false) (hy : y / 2 = x / 2 / 2) (hlt : q + 1 < r ∨ y = x / 2) :
    Below n r (q + 1) y := by
  obtain ⟨h1, h2⟩ := h
  have hne : q ≠ r := by
    rintro rfl
    rw [Nat.sub_self, pow_zero, Nat.div_one, hr] at h2; cases h2
  refine ⟨by omega, ?_⟩
  rw [show r - q = (r - (q + 1)) + 1 by omega, pow_succ', ← Nat.div_div_eq_div_mul] at h2
  rcases hlt with hlt | rfl
  · rw [show r - (q + 1) = (r - (q + 2)) + 1 by omega, pow_succ', ← Nat.div_div_eq_div_mul] at h2 ⊢
    rw [hy]; exact h2
  · exact h2

/-- The object that refers to a node is the root of the tree, or the sibling of the parent. -/
theorem Below.holder {n r q x j : ℕ} {A : Addr} (h : Below n r q x) (hr : rtOf n q x = false)
    (hj : holder (rtOf n) A (q + 1) (x / 2) = some j) : ∃ y, A (q + 1) y = some j ∧ Below n r (q + 1) y := by
  rcases holder_some hj with ⟨h1, h2⟩ | ⟨h1, -, h2⟩
  · exact ⟨_, h2, h.up hr rfl (.inr rfl)⟩
  · refine ⟨_, h2, h.up hr (sb_div _) (.inl ?_)⟩
    by_contra hc
    have hb := h.up hr rfl (.inr rfl)
    obtain rfl : r = q + 1 := by have := hb.1; omega
    have := hb.2
    rw [Nat.sub_self, pow_zero, Nat.div_one, h1] at this
    cases this

/-- The stack that is left when the destructor of an object is called. -/
noncomputable def room (stack n : ℕ) (A : Addr) (i : ℕ) : ℕ := by
  classical
  exact if h : ∃ e : ℕ × ℕ × ℕ, A e.1 e.2.1 = some i ∧ Below n e.2.2 e.1 e.2.1 then stack - (h.choose.2.2 - h.choose.1) else 0

theorem Shape.room {heap : List (INode H)} {n : ℕ} {A : Addr} (hs : Shape heap (rtOf n) A) (stack : ℕ) {r q x i : ℕ} (hi : A q x = some i)
    (hb : Below n r q x) : room stack n A i = stack - (r - q) := by
  have h : ∃ e : ℕ × ℕ × ℕ, A e.1 e.2.1 = some i ∧ Below n e.2.2 e.1 e.2.1 := ⟨(q, x, r), hi, hb⟩
  unfold Pol.room
  rw [dif_pos h]
  obtain ⟨h1, h2⟩ := h.choose_spec
  obtain ⟨e1, e2⟩ := hs.inj _ _ _ _ _ h1 hi
  rw [e1, e2] at h2
  rw [h2.unique hb, e1]

theorem Shape.room_zero {heap : List (INode H)} {n : ℕ} {A : Addr} (hs : Shape heap (rtOf n) A) (stack : ℕ) : Pol.room stack n A 0 = 0 := by
  unfold Pol.room
  rw [dif_neg]
  rintro ⟨e, h1, -⟩
  exact (hs.bnd _ _ _ h1).1 rfl

/-- Every node that is present is less than `stack` rows below the root of its tree. -/
def Shallow (n : ℕ) (A : Addr) (stack : ℕ) : Prop := ∀ r q x, (A q x).isSome → Below n r q x → r - q < stack

theorem destroy_ok {p : Pollard H} {n : ℕ} {f : ℕ → H} {A : Addr} (h : Inv p n f A) (hn : n ≤ 2 ^ 62) {S : ℕ → Prop} (hS : Counted p S)
    (hl : ∀ i, S i ↔ Live p i) {objs : List ℕ} (hnd : objs.Nodup) (hm : ∀ i, i ∈ objs ↔ S i) {stack : ℕ} (h1 : 1 ≤ stack)
    (hd : Shallow n A stack) {os : List (Option ℕ)} (hos : os.Perm (p.roots.flatMap nodeRefs)) :
    ∃ u l, releaseAll p.ext stack (os ++ [some remember]) ⟨useCount p objs, []⟩ = .ok u ∧ u.freed.Perm objs ∧ (∀ i, u.cnt i = 0) ∧ u.freed = l ++ [remember] := by
  have hsh := h.ph.shape
  have hin : ∀ {q x i}, A q x = some i → ∃ r, Below n r q x := by
    intro q x i hi
    apply Below.exists hn
    by_contra hc
    rw [h.out _ _ hc] at hi; cases hi
  have hst := counts_start p hS hnd hm (fun i hi => by
    rcases (h.live hn).1 ((hl i).1 hi) with rfl | ⟨q, x, hx⟩
    · exact h.ph.pos
    · exact (hsh.bnd _ _ _ hx).2)
  have hrk : ∀ j ∈ objs.toFinset, ∀ i, 0 < refsFrom p.ext j i → room stack n A i < room stack n A j := by
    intro j hj i hi
    rw [List.mem_toFinset, hm, hl, h.live hn] at hj
    obtain ⟨b, hb, hz⟩ := ref_iff.1 (refsFrom_pos.1 hi)
    obtain ⟨rk, r0, r1, r2⟩ := hsh.rank
    have hk := (r2 _ _ _ hb hz).2
    rcases hj with rfl | ⟨q, x, hx⟩
    · omega
    · obtain ⟨r, hr⟩ := hin hx
      have := hd r q x (by simp [hx]) hr
      rw [hsh.room stack hx hr]
      cases q with
      | zero =>
        have hleaf := hsh.leaf x
        rw [hx] at hleaf
        have hi0 : i = 0 := by
          rcases (by omega : b = 0 ∨ b = 1) with rfl | rfl
          · rcases hleaf.2 with e | e <;> rw [e] at hz <;> simp at hz; exact hz.symm
          · rw [hleaf.1] at hz; cases hz
        subst hi0
        rw [hsh.room_zero]; omega
      | succ q =>
        obtain ⟨z, z1, -, z3, z4⟩ := hsh.ref_kid h.out hx hb hz
        obtain ⟨r', hr'⟩ := hin z4
        obtain ⟨y, y1, y2⟩ := hr'.holder z1 z3
        obtain ⟨-, rfl⟩ := hsh.inj _ _ _ _ _ hx y1
        obtain rfl := hr.unique y2
        rw [hsh.room stack z4 hr']
        have := hr.1
        omega
  have hroot : ∀ i, some i ∈ os → room stack n A i + 0 ≤ stack := by
    intro i _
    unfold room
    split <;> omega
  unfold handles at hst
  replace hst := hst.perm (hos.symm.append_right _)
  obtain ⟨u1, a1, e1, c1, f1⟩ := releaseAll_ok (e := 0) stack _ _ _ _ hst hrk (fun i hi h0 => by
    rw [List.mem_toFinset, hm, hl, h.live hn] at hi
    rcases hi with rfl | ⟨q, x, hx⟩
    · simp [remember]
    · obtain ⟨r, hr⟩ := hin hx
      rw [hsh.room stack hx hr] at h0
      have := hd r q x (by simp [hx]) hr
      omega) hroot
  have ha1 : ∀ i ∈ a1, i = remember := by
    intro i hi
    by_contra hne
    have hne' : (a1.filter fun j => j ≠ remember).Nonempty := ⟨i, Finset.mem_filter.2 ⟨hi, hne⟩⟩
    obtain ⟨k, hk, hmax⟩ := Finset.exists_max_image _ (room stack n A) hne'
    rw [Finset.mem_filter] at hk
    have g1 := (c1.mem k).1 hk.1
    rw [c1.cnt k, count_cons_opt, List.count_nil, if_neg (by simpa using fun e => hk.2 e.symm), Nat.add_zero, Nat.zero_add] at g1
    obtain ⟨j, hj, h2⟩ := Finset.exists_ne_zero_of_sum_ne_zero (by omega : ∑ j ∈ a1, refsFrom p.ext j k ≠ 0)
    have g2 := hrk j (f1.1 hj) k (by omega)
    have hj0 : j ≠ remember := by
      rintro rfl
      rw [show remember = 0 from rfl, hsh.room_zero] at g2
      omega
    have := hmax j (Finset.mem_filter.2 ⟨hj, hj0⟩)
    omega
  have h0 : remember ∈ a1 := by
    rw [c1.mem, c1.cnt, count_cons_opt]
    simp
  obtain ⟨u2, a2, e2, c2, f2⟩ := releaseAll_ok (e := 1) stack [some remember] u1 [] a1 c1 (fun j hj => hrk j (f1.1 hj))
    (fun i _ h0 => by omega) (fun i hi => by
      rw [List.mem_singleton, Option.some.injEq] at hi
      rw [hi, show remember = 0 from rfl, hsh.room_zero]; omega)
  obtain rfl := c2.empty (fun j hj => hrk j (f1.1 (f2.1 hj)))
  obtain ⟨-, l, g1, g2, g3⟩ := f1.trans f2
  obtain ⟨-, l2, k1, k2, k3⟩ := f2
  have hl2 : l2 = [remember] := by
    rw [← List.perm_singleton, List.perm_ext_iff_of_nodup k2 (by simp)]
    intro i
    rw [k3, List.mem_singleton]
    exact ⟨fun t => ha1 i t.1, fun t => ⟨t ▸ h0, by simp⟩⟩
  refine ⟨u2, u1.freed, ?_, ?_, fun i => ?_, by rw [k1, hl2]⟩
  · rw [releaseAll_append, e1]
    exact e2
  · rw [g1, List.nil_append, List.perm_ext_iff_of_nodup g2 hnd]
    intro i
    rw [g3, List.mem_toFinset]
    simp
  · have := c2.mem i
    simp only [Finset.notMem_empty, false_iff] at this
    omega

/-! ## Too little stack -/

theorem release_le (heap : List (INode H)) : ∀ (stack : ℕ) (u u' : Use) (o : Option ℕ), release heap stack u o = .ok u' →
    ∀ j, u'.cnt j + (if o = some j then 1 else 0) ≤ u.cnt j := by
  intro stack
  induction stack with
  | zero =>
    intro u u' o h j
    cases o with
    | none => rw [release] at h; injection h with h; subst h; simp
    | some i =>
      rw [release] at h
      split at h
      · cases h
      · injection h with h
        subst h
        simp only [Use.drop, Option.some.injEq, eq_comm]
        split <;> first | omega | (subst_vars; omega)
  | succ stack ih =>
    intro u u' o h j
    cases o with
    | none => rw [release] at h; injection h with h; subst h; simp
    | some i =>
      have hd : u.cnt i ≠ 0 → (u.drop i).cnt j + (if some i = some j then 1 else 0) ≤ u.cnt j := by
        intro h0
        simp only [Use.drop, Option.some.injEq]
        by_cases hj : j = i
        · subst hj; simp; omega
        · rw [if_neg hj, if_neg (fun e => hj e.symm)]; omega
      rw [release] at h
      split at h
      · cases h
      · split at h
        · injection h with h
          subst h
          exact hd ‹_›
        · obtain ⟨x, -, h⟩ := bind_eq_ok.1 h
          obtain ⟨u1, h1, h⟩ := bind_eq_ok.1 h
          obtain ⟨u2, h2, h⟩ := bind_eq_ok.1 h
          injection h with h
          subst h
          have g1 := ih _ _ _ h1 j
          have g2 := ih _ _ _ h2 j
          have g3 := hd ‹_›
          show u2.cnt j + _ ≤ _
          omega

/-- A chain of references, from the first to the last object. -/
theorem release_chain (heap : List (INode H)) : ∀ (stack : ℕ) (u u' : Use) (i : ℕ) (ch : List ℕ), release heap stack u (some i) = .ok u' →
    List.IsChain (fun a b => 0 < refsFrom heap a b) (i :: ch) → (∀ j ∈ i :: ch, u.cnt j ≤ 1) → ch.length < stack := by
  intro stack
  induction stack with
  | zero =>
    intro u u' i ch h _ hc
    rw [release, if_pos (hc i (by simp))] at h
    cases h
  | succ stack ih =>
    intro u u' i ch h hch hc
    have hi := hc i (by simp)
    rw [release] at h
    split at h
    · cases h
    · split at h
      · omega
      · obtain ⟨x, hx, h⟩ := bind_eq_ok.1 h
        obtain ⟨u1, h1, h⟩ := bind_eq_ok.1 h
        obtain ⟨u2, h2, h⟩ := bind_eq_ok.1 h
        cases ch with
        | nil => simp
        | cons k ch =>
          rw [List.isChain_cons_cons] at hch
          have hx' : heap[i]? = some x := by
            unfold vecGet at hx
            split at hx
            · injection hx with hx; subst hx; assumption
            · cases hx
          have m0 : ∀ j, (u.drop i).cnt j ≤ u.cnt j := by
            intro j
            simp only [Use.drop]
            split <;> omega
          have m1 : ∀ j, u1.cnt j ≤ u.cnt j := by
            intro j
            have := release_le heap _ _ _ _ h1 j
            have := m0 j
            omega
          have hk : x.n0 = some k ∨ x.n1 = some k := by
            have := hch.1
            rw [refsFrom_some hx'] at this
            by_contra hc
            rw [not_or] at hc
            rw [if_neg hc.1, if_neg hc.2] at this
            omega
          rcases hk with hk | hk
          · rw [hk] at h1
            have := ih _ _ _ _ h1 hch.2 (fun j hj => (m0 j).trans (hc j (List.mem_cons_of_mem _ hj)))
            simp; omega
          · rw [hk] at h2
            have := ih _ _ _ _ h2 hch.2 (fun j hj => (m1 j).trans (hc j (List.mem_cons_of_mem _ hj)))
            simp; omega

theorem releaseAll_le (heap : List (INode H)) (stack : ℕ) : ∀ (os : List (Option ℕ)) (u u' : Use), releaseAll heap stack os u = .ok u' →
    ∀ j, u'.cnt j + os.count (some j) ≤ u.cnt j := by
  intro os
  induction os with
  | nil => intro u u' h j; injection h with h; subst h; simp
  | cons o os ih =>
    intro u u' h j
    rw [releaseAll] at h
    obtain ⟨u1, h1, h⟩ := bind_eq_ok.1 h
    have := release_le heap _ _ _ _ h1 j
    have := ih _ _ h j
    rw [count_cons_opt]
    omega

/-- The last release of an object that is the start of a chain. -/
theorem releaseAll_chain (heap : List (INode H)) (stack : ℕ) {os os' : List (Option ℕ)} {u u' : Use} {i : ℕ} {ch : List ℕ}
    (h : releaseAll heap stack (os ++ some i :: os') u = .ok u') (hch : List.IsChain (fun a b => 0 < refsFrom heap a b) (i :: ch))
    (hc : ∀ j ∈ i :: ch, u.cnt j ≤ 1 + os.count (some j)) : ch.length < stack := by
  rw [releaseAll_append] at h
  obtain ⟨u1, h1, h⟩ := bind_eq_ok.1 h
  rw [releaseAll] at h
  obtain ⟨u2, h2, h⟩ := bind_eq_ok.1 h
  refine release_chain heap stack u1 u2 i ch h2 hch (fun j hj => ?_)
  have := releaseAll_le heap stack os _ _ h1 j
  have := hc j hj
  omega

/-- Every object is the end of a chain that begins at the root of its tree. -/
theorem Inv.chain {p : Pollard H} {n : ℕ} {f : ℕ → H} {A : Addr} (h : Inv p n f A) {r : ℕ} : ∀ (k q x i : ℕ), q + k = r → A q x = some i →
    Below n r q x → ∀ ch, List.IsChain (fun a b => 0 < refsFrom p.ext a b) (i :: ch) → (∀ j ∈ ch, ∃ q x, A q x = some j ∧ rtOf n q x = false) →
    ∃ i0 x0 ch0, A r x0 = some i0 ∧ rtOf n r x0 = true ∧ List.IsChain (fun a b => 0 < refsFrom p.ext a b) (i0 :: ch0) ∧
      (∀ j ∈ ch0, ∃ q x, A q x = some j ∧ rtOf n q x = false) ∧ ch0.length = ch.length + k := by
  have hsh := h.ph.shape
  intro k
  induction k with
  | zero =>
    intro q x i hq hi hb ch hch hj
    obtain rfl : q = r := by omega
    have := hb.2
    rw [Nat.sub_self, pow_zero, Nat.div_one] at this
    exact ⟨i, x, ch, hi, this, hch, hj, rfl⟩
  | succ k ih =>
    intro q x i hq hi hb ch hch hj
    have hrt : rtOf n q x = false := by
      by_contra hc
      have : Below n q q x := ⟨le_rfl, by simpa using hc⟩
      have := hb.unique this
      omega
    obtain ⟨m, hm⟩ := hsh.holder_of hi hrt
    obtain ⟨y, y1, y2⟩ := hb.holder hrt hm
    have hk := hsh.kids q x hrt
    rw [hi, hm] at hk
    obtain ⟨i0, x0, ch0, a1, a2, a3, a4, a5⟩ := ih (q + 1) y m (by omega) y1 y2 (i :: ch)
      (List.isChain_cons_cons.2 ⟨refsFrom_pos.2 (ref_iff.2 ⟨x % 2, by omega, hk.symm⟩), hch⟩) (fun j hj' => by
        rcases List.mem_cons.1 hj' with rfl | hj'
        · exact ⟨q, x, hi, hrt⟩
        · exact hj j hj')
    exact ⟨i0, x0, ch0, a1, a2, a3, a4, by rw [a5, List.length_cons]; omega⟩

theorem release_error (heap : List (INode H)) : ∀ (stack : ℕ) (u : Use) (o : Option ℕ) (f : Fault), release heap stack u o = .error f → f = .ub := by
  intro stack
  induction stack with
  | zero =>
    intro u o f h
    cases o with
    | none => rw [release] at h; cases h
    | some i =>
      rw [release] at h
      split at h
      · injection h with h; exact h.symm
      · cases h
  | succ stack ih =>
    intro u o f h
    cases o with
    | none => rw [release] at h; cases h
    | some i =>
      rw [release] at h
      split at h
      · injection h with h; exact h.symm
      · split at h
        · cases h
        · cases hx : vecGet heap i with
          | error g =>
            rw [hx] at h
            injection h with h
            subst h
            unfold vecGet at hx
            split at hx
            · cases hx
            · injection hx with hx; exact hx.symm
          | ok x =>
            rw [hx, ok_bind] at h
            cases h1 : release heap stack (u.drop i) x.n0 with
            | error g => rw [h1] at h; injection h with h; subst h; exact ih _ _ _ h1
            | ok u1 =>
              rw [h1, ok_bind] at h
              cases h2 : release heap stack u1 x.n1 with
              | error g => rw [h2] at h; injection h with h; subst h; exact ih _ _ _ h2
              | ok u2 => rw [h2, ok_bind] at h; cases h

theorem releaseAll_error (heap : List (INode H)) (stack : ℕ) : ∀ (os : List (Option ℕ)) (u : Use) (f : Fault),
    releaseAll heap stack os u = .error f → f = .ub := by
  intro os
  induction os with
  | nil => intro u f h; cases h
  | cons o os ih =>
    intro u f h
    rw [releaseAll] at h
    cases h1 : release heap stack u o with
    | error g => rw [h1] at h; injection h with h; subst h; exact release_error _ _ _ _ _ h1
    | ok u1 => rw [h1, ok_bind] at h; exact ih _ _ h

theorem split_two {l : List (Option ℕ)} {i : ℕ} (h : 2 ≤ l.count (some i)) :
    ∃ os os', l = os ++ some i :: os' ∧ 1 ≤ os.count (some i) := by
  obtain ⟨a, b, e⟩ := List.append_of_mem (List.count_pos_iff.1 (by omega : 0 < l.count (some i)))
  by_cases ha : 1 ≤ a.count (some i)
  · exact ⟨a, b, e, ha⟩
  · rw [e, List.count_append, count_cons_opt, if_pos rfl] at h
    obtain ⟨c, d, e'⟩ := List.append_of_mem (List.count_pos_iff.1 (by omega : 0 < b.count (some i)))
    refine ⟨a ++ some i :: c, d, by rw [e, e']; simp, ?_⟩
    rw [List.count_append, count_cons_opt, if_pos rfl]
    omega

theorem destroy_deep {p : Pollard H} {n : ℕ} {f : ℕ → H} {A : Addr} (h : Inv p n f A) (hn : n ≤ 2 ^ 62) {objs : List ℕ} (hnd : objs.Nodup)
    (hm : ∀ i, i ∈ objs ↔ Live p i) {stack : ℕ} {u : Use} (hd : destroy stack p objs = .ok u) : 1 ≤ stack ∧ Shallow n A stack := by
  have hsh := h.ph.shape
  have hsub : Shallow n A stack := by
    intro r q x hx hb
    obtain ⟨i, hi⟩ := Option.isSome_iff_exists.1 hx
    obtain ⟨i0, x0, ch, a1, a2, a3, a4, a5⟩ := h.chain (r - q) q x i (by have := hb.1; omega) hi hb [] (by simp) (by simp)
    have hin : A r x0 ∈ (rootCoords n).map fun c => A c.1 c.2 := List.mem_map.2 ⟨(r, x0), rt_mem a2 hn, rfl⟩
    have h2 : 2 ≤ (handles p).count (some i0) := by
      rw [h.ph.handles_count]
      rw [a1] at hin
      have := List.count_pos_iff.2 hin
      omega
    obtain ⟨os, os', e1, e2⟩ := split_two h2
    unfold destroy at hd
    rw [e1] at hd
    have := releaseAll_chain p.ext stack hd a3 (fun j hj => by
      show useCount p objs j ≤ _
      rcases List.mem_cons.1 hj with rfl | hj
      · rw [h.useCount hn hnd hm a1, if_pos a2]; omega
      · obtain ⟨q', x', b1, b2⟩ := a4 j hj
        rw [h.useCount hn hnd hm b1, b2]; simp)
    rw [a5] at this
    simpa using this
  refine ⟨?_, hsub⟩
  by_contra h0
  obtain rfl : stack = 0 := by omega
  have hnone : ∀ q x, A q x = none := by
    intro q x
    by_contra hc
    have hx : x < n / 2 ^ q := by
      by_contra hc'
      exact hc (h.out _ _ hc')
    obtain ⟨r, hr⟩ := Below.exists hn hx
    have := hsub r q x (Option.isSome_iff_ne_none.2 hc) hr
    omega
  unfold destroy at hd
  have hd' : releaseAll p.ext 0 (p.roots.flatMap nodeRefs ++ some remember :: []) ⟨useCount p objs, []⟩ = .ok u := hd
  have := releaseAll_chain p.ext 0 (ch := []) hd' (by simp) (fun j hj => by
    rw [List.mem_singleton] at hj
    subst hj
    show useCount p objs remember ≤ _
    have hz : (objs.map fun j => refsFrom p.ext j remember).sum = 0 := by
      rw [List.sum_eq_zero_iff]
      intro k hk
      obtain ⟨j, hj, rfl⟩ := List.mem_map.1 hk
      by_contra hc
      obtain ⟨b, hb, h1⟩ := ref_iff.1 (refsFrom_pos.1 (Nat.pos_of_ne_zero hc))
      obtain ⟨rk, r0, r1, r2⟩ := hsh.rank
      have hk := (r2 _ _ _ hb h1).2
      rcases (h.live hn).1 ((hm j).1 hj) with rfl | ⟨q, x, hx⟩
      · omega
      · rw [hnone] at hx; cases hx
    unfold useCount handles
    rw [hz, List.count_append]
    simp; omega)
  omega


end Pol
end Utreexo
