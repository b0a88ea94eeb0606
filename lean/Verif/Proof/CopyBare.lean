import Verif.Proof.CopyAdd
import Mathlib.Algebra.Order.BigOperators.Group.List

/-!
# Additions to a pollard that has nothing but its roots

`MergeRoot` swaps the nieces of the two roots it merges. If neither has any, the swap changes nothing and the parent is pruned, so the
objects of a copy stay as they are.
-/

set_option linter.unusedSectionVars false

namespace Utreexo
open Spec Equiv

variable {H : Type} [DecidableEq H] [HashOps H]

namespace Pol

/-- An object without nieces. -/
def Bare (heap : List (INode H)) (o : Option ℕ) : Prop := ∃ p h, o = some p ∧ heap[p]? = some { hash := h, n0 := none, n1 := none }

/-- The old objects are as before, the new ones have no nieces. -/
structure Grown (B : ℕ) (heap heap' : List (INode H)) : Prop where
  old : Same B heap heap'
  new : ∀ i x, B ≤ i → heap'[i]? = some x → x.n0 = none ∧ x.n1 = none

theorem Grown.append {B : ℕ} {heap heap' : List (INode H)} (h : Grown B heap heap') (y : H) :
    Grown B heap (heap' ++ [{ hash := y, n0 := none, n1 := none }]) := by
  refine ⟨h.old.trans (Same.append h.old.2), ?_⟩
  intro i x hi hx
  rcases lt_or_ge i heap'.length with hl | hl
  · rw [List.getElem?_append_left hl] at hx
    exact h.new i x hi hx
  · rw [List.getElem?_append_right hl] at hx
    have hx := List.mem_of_getElem? hx
    rw [List.mem_singleton] at hx
    subst hx
    exact ⟨rfl, rfl⟩

theorem Bare.append {heap : List (INode H)} {o : Option ℕ} (h : Bare heap o) (l : List (INode H)) : Bare (heap ++ l) o := by
  obtain ⟨p, y, rfl, e⟩ := h
  refine ⟨p, y, rfl, ?_⟩
  rw [List.getElem?_append_left (List.getElem?_eq_some_iff.1 e).1]
  exact e

theorem set_same {heap : List (INode H)} {p : ℕ} {x : INode H} (h : heap[p]? = some x) : heap.set p x = heap := by
  apply List.ext_getElem?
  intro i
  by_cases hi : i = p
  · subst hi
    rw [List.getElem?_set_self (List.getElem?_eq_some_iff.1 h).1, h]
  · rw [List.getElem?_set_ne (by omega)]

theorem prune_bare {heap : List (INode H)} {l r : Option ℕ} (hl : Bare heap l) (hr : Bare heap r) (y : H) :
    prune (heap ++ [{ hash := y, n0 := l, n1 := r }]) (some heap.length) =
      .ok (heap ++ [{ hash := y, n0 := none, n1 := none }]) := by
  have hde : ∀ (z : List (INode H)) (o : Option ℕ), Bare heap o → pruned (heap ++ z) o = .ok none := by
    intro z o ho
    obtain ⟨p, h, rfl, e⟩ := ho.append z
    unfold pruned deadEnd vecGet
    simp only [e]
    rfl
  have hset : ∀ a b : INode H, (heap ++ [a]).set heap.length b = heap ++ [b] := by
    intro a b
    simp
  unfold prune deref store vecGet vecSet
  simp only [List.getElem?_concat_length, ok_bind, hde _ _ hl, List.length_append, List.length_singleton, Nat.lt_succ_self, if_true, hset,
    hde _ _ hr]

theorem mergeRoot_bare {s s' : Pollard H} {pos : ℕ} {y : H} {nr : PNode} (h : mergeRoot s pos y = .ok (nr, s'))
    {B : ℕ} {heap : List (INode H)} (hg : Grown B heap s.ext) (hb : ∀ o ∈ nodes s, Bare s.ext o) :
    Grown B heap s'.ext ∧ ∀ o ∈ nodes s', Bare s'.ext o := by
  unfold mergeRoot at h
  split at h
  · rename_i r l rest hr
    have hroots : s.roots = rest.reverse ++ [l, r] := by
      have := congrArg List.reverse hr
      simpa using this
    have bl : Bare s.ext l.e.node := hb _ (by unfold nodes; rw [hroots]; simp)
    have br : Bare s.ext r.e.node := hb _ (by unfold nodes; rw [hroots]; simp)
    obtain ⟨pl, hl, el, fl⟩ := bl
    obtain ⟨pr, hr', er, fr⟩ := br
    have g1 := (List.getElem?_eq_some_iff.1 fl).1
    have g2 := (List.getElem?_eq_some_iff.1 fr).1
    rw [el, er] at h
    simp only [deref, store, vecGet, vecSet, fl, fr, ok_bind, g1, g2, if_true, set_same fl, set_same fr,
      List.getElem?_append_left g1, List.getElem?_append_left g2] at h
    rw [if_pos (by simp)] at h
    rw [prune_bare ⟨pl, hl, rfl, fl⟩ ⟨pr, hr', rfl, fr⟩, ok_bind] at h
    obtain ⟨-, rfl⟩ := Prod.mk.inj (Except.ok.inj h)
    refine ⟨hg.append y, ?_⟩
    intro o ho
    unfold nodes at ho
    dsimp only at ho ⊢
    rw [List.map_append, List.mem_append] at ho
    rcases ho with ho | ho
    · exact (hb o (by unfold nodes; rw [hroots, List.map_append, List.mem_append]; exact .inl ho)).append _
    · simp only [List.map_cons, List.map_nil, List.mem_singleton] at ho
      exact ⟨_, y, ho, by simp⟩
  · cases h

theorem mergeLoop_bare (n : ℕ) {B : ℕ} {heap : List (INode H)} :
    ∀ (fuel row : ℕ) (root : ℤ) (nr : PNode) {s s' : Pollard H}, Acc.mergeLoop vt n fuel row root nr s = .ok s' →
      Grown B heap s.ext → (∀ o ∈ nodes s, Bare s.ext o) → Grown B heap s'.ext ∧ ∀ o ∈ nodes s', Bare s'.ext o
  | 0, _, _, _, _, _, h, _, _ => by cases h
  | fuel + 1, row, root, nr, s, s', h, hg, hb => by
    rw [Acc.mergeLoop] at h
    obtain ⟨b, -, h⟩ := bind_eq_ok.1 h
    cases b with
    | false =>
      obtain rfl := Except.ok.inj h
      exact ⟨hg, hb⟩
    | true =>
      rw [if_pos rfl] at h
      obtain ⟨l, -, h⟩ := bind_eq_ok.1 h
      obtain ⟨lh, -, h⟩ := bind_eq_ok.1 h
      obtain ⟨rh, -, h⟩ := bind_eq_ok.1 h
      obtain ⟨pp, -, h⟩ := bind_eq_ok.1 h
      obtain ⟨⟨nr', s1⟩, h1, h⟩ := bind_eq_ok.1 h
      obtain ⟨k1, k2⟩ := mergeRoot_bare (show mergeRoot s pp _ = _ from h1) hg hb
      exact mergeLoop_bare n fuel (row + 1) (root - 1) nr' h k1 k2

theorem addOne_bare {s s' : Pollard H} {leaf : Leaf H} (h : Acc.addOne vt s leaf = .ok s') (hl : leaf.2 = false) {B : ℕ}
    {heap : List (INode H)} (hg : Grown B heap s.ext) (hb : ∀ o ∈ nodes s, Bare s.ext o) :
    Grown B heap s'.ext ∧ ∀ o ∈ nodes s', Bare s'.ext o := by
  unfold Acc.addOne at h
  obtain ⟨⟨nr, s1⟩, h1, h0⟩ := bind_eq_ok.1 h
  clear h
  obtain ⟨s2, h2, h⟩ := bind_eq_ok.1 h0
  clear h0
  have h1 : newLeaf s leaf = .ok (nr, s1) := h1
  unfold newLeaf at h1
  rw [hl] at h1
  obtain ⟨-, rfl⟩ := Prod.mk.inj (Except.ok.inj h1)
  obtain ⟨j1, j2⟩ := mergeLoop_bare (B := B) (heap := heap) s.numLeaves _ _ _ _ h2 (hg.append _)
    (by
      intro o ho
      unfold nodes at ho
      dsimp only at ho
      rw [List.map_append, List.mem_append] at ho
      rcases ho with ho | ho
      · exact (hb o ho).append _
      · simp only [List.map_cons, List.map_nil, List.mem_singleton] at ho
        exact ⟨_, leaf.1, ho, by simp⟩)
  dsimp only at h
  split at h
  · obtain rfl := Except.ok.inj h
    exact ⟨j1, j2⟩
  · split at h
    · rename_i r0 r1 rest hr
      obtain ⟨p0, -, h⟩ := bind_eq_ok.1 h
      obtain ⟨p1, -, h⟩ := bind_eq_ok.1 h
      obtain rfl := Except.ok.inj h
      refine ⟨j1, ?_⟩
      intro o ho
      apply j2 o
      unfold nodes at ho ⊢
      rw [hr]
      exact ho
    · cases h

theorem add_bare {B : ℕ} {heap : List (INode H)} :
    ∀ (leaves : List (Leaf H)) (s s' : Pollard H), Acc.add vt s leaves = .ok s' → (∀ l ∈ leaves, l.2 = false) →
      Grown B heap s.ext → (∀ o ∈ nodes s, Bare s.ext o) → Grown B heap s'.ext ∧ ∀ o ∈ nodes s', Bare s'.ext o := by
  intro leaves
  induction leaves with
  | nil =>
    intro s s' h _ hg hb
    obtain rfl := Except.ok.inj h
    exact ⟨hg, hb⟩
  | cons l ls ih =>
    intro s s' h hl hg hb
    have h : (Acc.addOne vt s l >>= fun s1 => Acc.add vt s1 ls) = .ok s' := h
    obtain ⟨s1, h1, h2⟩ := bind_eq_ok.1 h
    obtain ⟨k1, k2⟩ := addOne_bare h1 (hl l (by simp)) hg hb
    exact ih s1 s' h2 (fun x hx => hl x (List.mem_cons_of_mem _ hx)) k1 k2

/-- If no leaf is remembered and there are as many nodes as roots, then the roots have no nieces. -/
theorem Inv.bare {s : Pollard H} {n : ℕ} {f : ℕ → H} {A : Addr} (h : Inv s n f A) (h0 : numCachedLeaves s = 0)
    (h1 : countNodes s = s.roots.length) : ∀ o ∈ nodes s, Bare s.ext o := by
  have hz : ∀ r ∈ s.roots, countRemember s.ext (s.ext.length + 66) r.e.node = 0 := by
    intro r hr
    unfold numCachedLeaves at h0
    have := List.single_le_sum (l := s.roots.map fun r => countRemember s.ext (s.ext.length + 66) r.e.node) (fun _ _ => Nat.zero_le _) _
      (List.mem_map.2 ⟨r, hr, rfl⟩)
    omega
  have hpt : ∀ r ∈ s.roots, ∃ p x, r.e.node = some p ∧ p ≠ 0 ∧ s.ext[p]? = some x := by
    intro r hr
    have hm : r.e.node ∈ s.roots.map (fun r => r.e.node) := List.mem_map.2 ⟨r, hr, rfl⟩
    rw [h.ph.roots.node] at hm
    obtain ⟨c, hc, e⟩ := List.mem_map.1 hm
    obtain ⟨t, ht, rfl⟩ := List.mem_map.1 hc
    have hs := h.ph.shape.root t (rootIdx n t) (rtOf_true.2 ⟨(mem_treeRows.1 ht).2, rfl⟩)
    obtain ⟨p, hp⟩ := Option.isSome_iff_exists.1 hs
    obtain ⟨b1, b2⟩ := h.ph.shape.bnd _ _ _ hp
    exact ⟨p, s.ext[p], by rw [← e]; exact hp, b1, List.getElem?_eq_getElem b2⟩
  have hge : ∀ r ∈ s.roots, 1 ≤ countBelow s.ext (s.ext.length + 66) r.e.node := by
    intro r hr
    obtain ⟨p, x, e1, e2, e3⟩ := hpt r hr
    rw [e1]
    simp only [countBelow, remember, if_neg e2, e3]
    omega
  have hone : ∀ r ∈ s.roots, countBelow s.ext (s.ext.length + 66) r.e.node = 1 := by
    have key : ∀ l : List PNode, (∀ r ∈ l, 1 ≤ countBelow s.ext (s.ext.length + 66) r.e.node) →
        l.length ≤ (l.map fun r => countBelow s.ext (s.ext.length + 66) r.e.node).sum ∧
        ((l.map fun r => countBelow s.ext (s.ext.length + 66) r.e.node).sum = l.length →
          ∀ r ∈ l, countBelow s.ext (s.ext.length + 66) r.e.node = 1) := by
      intro l
      induction l with
      | nil => intro _; exact ⟨le_rfl, fun _ r hr => by cases hr⟩
      | cons a l ih =>
        intro hl
        obtain ⟨i1, i2⟩ := ih (fun r hr => hl r (List.mem_cons_of_mem _ hr))
        have ha := hl a List.mem_cons_self
        simp only [List.map_cons, List.sum_cons, List.length_cons]
        refine ⟨by omega, ?_⟩
        intro hs r hr
        rcases List.mem_cons.1 hr with rfl | hr
        · omega
        · exact i2 (by omega) r hr
    exact (key s.roots hge).2 h1
  obtain ⟨rk, -, -, g2⟩ := h.ph.shape.rank
  intro o ho
  obtain ⟨r, hr, rfl⟩ := List.mem_map.1 ho
  obtain ⟨p, x, e1, e2, e3⟩ := hpt r hr
  have a1 := hz r hr
  have a2 := hone r hr
  rw [e1] at a1 a2 ⊢
  simp only [countBelow, countRemember, remember, if_neg e2, e3] at a1 a2
  have hn : ∀ b, b < 2 → countBelow s.ext (s.ext.length + 65) (INode.niece x b) = 0 →
      countRemember s.ext (s.ext.length + 65) (INode.niece x b) = 0 → INode.niece x b = none := by
    intro b hb c1 c2
    cases hk : INode.niece x b with
    | none => rfl
    | some k =>
      exfalso
      have hk' := (g2 p b k hb (by rw [nz_some e3, hk])).1
      rw [hk] at c1 c2
      by_cases hk0 : k = remember
      · simp [countRemember, if_pos hk0] at c2
      · simp only [countBelow, if_neg hk0, List.getElem?_eq_getElem hk'] at c1
        omega
  have n0 : x.n0 = none := hn 0 (by omega) (by show countBelow _ _ x.n0 = 0; omega) (by show countRemember _ _ x.n0 = 0; omega)
  have n1 : x.n1 = none := hn 1 (by omega) (by show countBelow _ _ x.n1 = 0; omega) (by show countRemember _ _ x.n1 = 0; omega)
  refine ⟨p, x.hash, rfl, ?_⟩
  rw [e3]
  cases x
  simp only at n0 n1
  rw [n0, n1]

/-- A pollard whose objects are untouched, in a heap that got further objects without nieces. -/
theorem Inv.grown {s : Pollard H} {n : ℕ} {f : ℕ → H} {A : Addr} (h : Inv s n f A) {heap' : List (INode H)}
    (hg : Grown s.ext.length s.ext heap') : Inv { s with ext := heap' } n f A := by
  have hs := hg.old
  have hnz : ∀ r i b, nz heap' (A r i) b = nz s.ext (A r i) b := by
    intro r i b
    cases hA : A r i with
    | none => rfl
    | some p => exact nz_same hs (h.ph.shape.bnd _ _ _ hA).2
  have hh : ∀ r i b, nz heap' (holder (rtOf n) A r i) b = nz s.ext (holder (rtOf n) A r i) b := by
    intro r i b
    cases hA : holder (rtOf n) A r i with
    | none => rfl
    | some p =>
      rcases holder_some hA with ⟨-, g⟩ | ⟨-, -, g⟩
      · rw [← g]; exact hnz _ _ _
      · rw [← g]; exact hnz _ _ _
  refine ⟨⟨h.ph.num, ?_, ?_, h.ph.roots, lt_of_lt_of_le h.ph.pos hs.2⟩, h.out⟩
  · refine ⟨?_, h.ph.shape.inj, ?_, ?_, h.ph.shape.root, ?_⟩
    · intro r y hr
      rw [h.ph.shape.kids r y hr, ← hh]
    · intro r i p hp
      have := h.ph.shape.bnd r i p hp
      exact ⟨this.1, lt_of_lt_of_le this.2 hs.2⟩
    · intro i
      have := h.ph.shape.leaf i
      rw [← hnz, ← hnz] at this
      exact this
    · obtain ⟨rk, g0, g1, g2⟩ := h.ph.shape.rank
      refine ⟨rk, g0, g1, ?_⟩
      intro p b k hb hk
      rcases lt_or_ge p s.ext.length with hp | hp
      · rw [nz_same hs hp] at hk
        obtain ⟨q1, q2⟩ := g2 p b k hb hk
        exact ⟨lt_of_lt_of_le q1 hs.2, q2⟩
      · exfalso
        unfold nz at hk
        cases hx : heap'[p]? with
        | none => simp [hx] at hk
        | some x =>
          obtain ⟨e0, e1⟩ := hg.new p x hp hx
          simp only [hx, Option.bind_some, INode.niece, e0, e1, ite_self] at hk
          cases hk
  · intro r i p hp
    have := h.ph.hashed r i p hp
    rw [← hs.1 p (h.ph.shape.bnd _ _ _ hp).2] at this
    exact this

/-- A copy after leaves that are not to be remembered were added to the other one, while the two had nothing but roots. -/
theorem copy_bare {s s' : Pollard H} {n : ℕ} {f : ℕ → H} {A : Addr} (h : Inv s n f A) {leaves : List (Leaf H)}
    (hb : ∀ o ∈ nodes s, Bare s.ext o) (hl : ∀ l ∈ leaves, l.2 = false) (hm : modify s leaves [] = .ok (true, s')) :
    Same s.ext.length s.ext s'.ext ∧ Inv (copyAfterModify leaves [] s s') n f A ∧
    ∀ r i b, nz (copyAfterModify leaves [] s s').ext (holder (rtOf n) A r i) b = nz s.ext (holder (rtOf n) A r i) b := by
  have hm : (Acc.add vt s leaves >>= fun s2 => (pure (true, s2) : Res (Bool × Pollard H))) = .ok (true, s') := hm
  obtain ⟨s2, e1, e2⟩ := bind_eq_ok.1 hm
  clear hm
  obtain ⟨-, rfl⟩ := Prod.mk.inj (Except.ok.inj e2)
  obtain ⟨hg, -⟩ := add_bare (B := s.ext.length) (heap := s.ext) leaves s s2 e1 hl
    ⟨⟨fun _ _ => rfl, le_rfl⟩, fun i x hi hx => by rw [List.getElem?_eq_none hi] at hx; cases hx⟩ hb
  have hI := h.grown hg
  obtain ⟨c1, c2, c3⟩ := copyRoots_nodes s.numLeaves leaves [] s.roots
  refine ⟨hg.old, ⟨⟨hI.ph.num, hI.ph.shape, hI.ph.hashed, ?_, hI.ph.pos⟩, hI.out⟩, ?_⟩
  · exact hI.ph.roots.mapPos c1 c2 (c3 h.ph.roots.up)
  · intro r i b
    cases hA : holder (rtOf n) A r i with
    | none => rfl
    | some p =>
      rcases holder_some hA with ⟨-, g⟩ | ⟨-, -, g⟩
      · exact nz_same hg.old (h.ph.shape.bnd _ _ _ g).2
      · exact nz_same hg.old (h.ph.shape.bnd _ _ _ g).2

end Pol
end Utreexo
