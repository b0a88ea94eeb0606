import Verif.Proof.PolVerify
import Verif.Props.Ram

/-! # Roots, counting, pruning, restoring and proving with a pollard -/

set_option linter.unusedSectionVars false

namespace Utreexo
open Spec Equiv

variable {H : Type} [DecidableEq H] [HashOps H]

namespace Pol

/-! ## Soundness of an accepted verification -/

/-- Two different pairs of children with the same parent hash, the first of which is cached. -/
def Coll (heap : List (INode H)) (A : Addr) (n : ℕ) (f : ℕ → H) : Prop :=
  ∃ r y, y < n / 2 ^ (r + 1) ∧ (A r (2 * y)).isSome ∧ (A r (2 * y + 1)).isSome ∧
    ¬ (cv heap A r (2 * y) = mt f r (2 * y) ∧ cv heap A r (2 * y + 1) = mt f r (2 * y + 1)) ∧
    HashOps.ph (cv heap A r (2 * y)) (cv heap A r (2 * y + 1)) = HashOps.ph (mt f r (2 * y)) (mt f r (2 * y + 1))

theorem Accepted.values {s s' : Pollard H} {n : ℕ} {f : ℕ → H} {A A1 : Addr} {D : List ℕ} {hs : List H} (hA : Inv s n f A)
    (h : Accepted s s' n f A A1 D hs) (nc : ¬ Coll s'.ext A1 n f) :
    ∀ k r x, St.numRows n < r + k → x ∈ Vn n D r → cv s'.ext A1 r x = mt f r x := by
  intro k
  induction k with
  | zero =>
    intro r x hr hx
    have := (row_le h.sane.n62 (Vn_in h.sane hx)).1
    omega
  | succ k ih =>
    intro r x hr hx
    cases hrt : rtOf n r x with
    | true =>
      obtain ⟨p, hp⟩ := Option.isSome_iff_exists.1 (hA.ph.shape.root r x hrt)
      exact h.old r x p hp
    | false =>
      have hC := Vn_parent h.sane hx hrt
      have hup := ih (r + 1) (x / 2) (by omega) (Cn_sub h.sane hC)
      have kv : ∀ b, b < 2 → 2 * (x / 2) + b ∈ Vn n D r := by
        intro b hb
        rw [mem_Vn h.sane]; left
        rw [show (2 * (x / 2) + b) / 2 = x / 2 by omega]; exact hC
      have both : cv s'.ext A1 r (2 * (x / 2)) = mt f r (2 * (x / 2)) ∧
          cv s'.ext A1 r (2 * (x / 2) + 1) = mt f r (2 * (x / 2) + 1) := by
        rcases h.sem r (x / 2) hC with h1 | h1
        · exact h1
        · by_contra hne
          refine nc ⟨r, x / 2, (Cn_ok h.sane _).2 _ hC, h.pres _ _ (kv 0 (by omega)), h.pres _ _ (kv 1 (by omega)), hne, ?_⟩
          rw [← h1, hup, mt_succ]
      have : x = 2 * (x / 2) ∨ x = 2 * (x / 2) + 1 := by omega
      rcases this with e | e
      · rw [e]; exact both.1
      · rw [e]; exact both.2

theorem inv_of_values {s' : Pollard H} {n : ℕ} {f : ℕ → H} {A1 : Addr} (ph : PH s' n A1 (cv s'.ext A1))
    (out : ∀ r y, ¬ y < n / 2 ^ r → A1 r y = none) (hv : ∀ r x p, A1 r x = some p → cv s'.ext A1 r x = mt f r x) : Inv s' n f A1 := by
  refine ⟨⟨ph.num, ph.shape, ?_, ph.roots, ph.pos⟩, out⟩
  intro r x p hp
  rw [ph.hashed r x p hp, hv r x p hp]

theorem Accepted.inv {s s' : Pollard H} {n : ℕ} {f : ℕ → H} {A A1 : Addr} {D : List ℕ} {hs : List H}
    (h : Accepted s s' n f A A1 D hs) (hv : ∀ r x, x ∈ Vn n D r → cv s'.ext A1 r x = mt f r x) : Inv s' n f A1 := by
  refine inv_of_values h.ph h.out ?_
  intro r x p hp
  cases h0 : A r x with
  | none => exact hv r x (h.new r x p hp h0)
  | some q => exact h.old r x q h0

theorem Accepted.sound {s s' : Pollard H} {n : ℕ} {f : ℕ → H} {A A1 : Addr} {D : List ℕ} {hs : List H} (hA : Inv s n f A)
    (h : Accepted s s' n f A A1 D hs) (nc : ¬ Coll s'.ext A1 n f) : Inv s' n f A1 ∧ hs = D.map f := by
  have hv : ∀ r x, x ∈ Vn n D r → cv s'.ext A1 r x = mt f r x := fun r x hx => h.values hA nc (St.numRows n + 1) r x (by omega) hx
  refine ⟨h.inv hv, ?_⟩
  rw [h.tgt]
  apply List.map_congr_left
  intro x hx
  exact hv 0 x (Cn_sub h.sane (k := 0) hx)

/-! ## Roots -/

theorem mapM_nodeHash {s : Pollard H} {A : Addr} {c : ℕ → ℕ → H} (hH : Hashed s.ext A c) : ∀ (rs : List PNode) (cs : List (ℕ × ℕ)),
    rs.map (fun r => r.e.node) = cs.map (fun e => A e.1 e.2) → (∀ e ∈ cs, (A e.1 e.2).isSome) →
    rs.mapM (nodeHash s) = .ok (cs.map fun e => c e.1 e.2) := by
  intro rs
  induction rs with
  | nil =>
    intro cs h _
    cases cs with
    | nil => rfl
    | cons a l => simp at h
  | cons r rs ih =>
    intro cs h hp
    cases cs with
    | nil => simp at h
    | cons e cs =>
      simp only [List.map_cons, List.cons.injEq] at h
      obtain ⟨p, hp1⟩ := Option.isSome_iff_exists.1 (hp e (by simp))
      have hh := hH e.1 e.2 p hp1
      obtain ⟨z, hz1, hz2⟩ := Option.map_eq_some_iff.1 hh
      have e1 : nodeHash s r = .ok (c e.1 e.2) := by
        unfold nodeHash
        rw [h.1, hp1, deref_ok hz1, ok_bind, hz2]; rfl
      rw [List.mapM_cons, e1, ok_bind, ih cs h.2 (fun x hx => hp x (by simp [hx])), ok_bind]
      rfl

theorem PH.roots_ok {s : Pollard H} {n : ℕ} {A : Addr} {c : ℕ → ℕ → H} (h : PH s n A c) :
    Pol.roots s = .ok ((rootCoords n).map fun e => c e.1 e.2) :=
  mapM_nodeHash h.hashed _ _ h.roots.node (fun _ he => h.shape.root _ _ (mem_rootCoords he))

theorem Inv.roots_ok {s : Pollard H} {n : ℕ} {f : ℕ → H} {A : Addr} (h : Inv s n f A) :
    Pol.roots s = .ok (merkleRoots HashOps.ph f n) := by
  rw [h.ph.roots_ok]
  unfold rootCoords merkleRoots
  rw [List.map_map]; rfl

theorem Inv.congr {s : Pollard H} {n : ℕ} {f g : ℕ → H} {A : Addr} (h : Inv s n f A) (hfg : ∀ x, x < n → f x = g x) : Inv s n g A := by
  refine ⟨⟨h.ph.num, h.ph.shape, ?_, h.ph.roots, h.ph.pos⟩, h.out⟩
  intro r i p hp
  rw [h.ph.hashed r i p hp]
  congr 1
  apply mt_congr
  intro x hx
  apply hfg
  by_contra hc
  have h1 : n / 2 ^ r ≤ x / 2 ^ r := Nat.div_le_div_right (by omega)
  have := h.out r i (by omega)
  rw [this] at hp; simp at hp

/-! ## Counting -/

/-- The nodes counted below a node. -/
def cntA (n : ℕ) (A : Addr) : ℕ → ℕ → ℕ
  | 0, i => if (A 0 i).isSome then 1 else 0
  | r + 1, i => if (A (r + 1) i).isSome then
      1 + cntA n A r (2 * (if rtOf n (r + 1) i then i else i ^^^ 1)) + cntA n A r (2 * (if rtOf n (r + 1) i then i else i ^^^ 1) + 1) else 0

theorem countBelow_ok {heap : List (INode H)} {n : ℕ} {A : Addr} (s : Shape heap (rtOf n) A) : ∀ (r i fuel : ℕ),
    i < n / 2 ^ r → r < fuel → countBelow heap fuel (A r i) = cntA n A r i := by
  intro r
  induction r with
  | zero =>
    intro i fuel hi hf
    obtain ⟨k, rfl⟩ : ∃ k, fuel = k + 1 := ⟨fuel - 1, by omega⟩
    cases ha : A 0 i with
    | none => simp [countBelow, cntA, ha]
    | some p =>
      obtain ⟨z, hz⟩ := s.get ha
      have hp := (s.bnd _ _ _ ha).1
      have hl := s.leaf i
      rw [ha, nz_some hz, nz_some hz] at hl
      have h1 : z.n1 = none := hl.1
      have h0 : z.n0 = none ∨ z.n0 = some 0 := hl.2
      have e1 : countBelow heap k z.n1 = 0 := by rw [h1]; cases k <;> rfl
      have e0 : countBelow heap k z.n0 = 0 := by
        rcases h0 with h0 | h0 <;> rw [h0] <;> cases k <;> simp [countBelow, remember]
      rw [countBelow]
      simp only [remember, hp, if_false, hz, e0, e1, cntA, ha, Option.isSome_some, if_true]
  | succ r ih =>
    intro i fuel hi hf
    obtain ⟨k, rfl⟩ : ∃ k, fuel = k + 1 := ⟨fuel - 1, by omega⟩
    cases ha : A (r + 1) i with
    | none => simp [countBelow, cntA, ha]
    | some p =>
      obtain ⟨z, hz⟩ := s.get ha
      have hp := (s.bnd _ _ _ ha).1
      have key : ∀ j, holder (rtOf n) A (r + 1) j = some p → j < n / 2 ^ (r + 1) →
          1 + countBelow heap k z.n0 + countBelow heap k z.n1 = 1 + cntA n A r (2 * j) + cntA n A r (2 * j + 1) := by
        intro j hj hjn
        have r0 : rtOf n r (2 * j) = false := rtOf_false (by rw [show (2 * j) / 2 = j by omega]; exact hjn)
        have r1 : rtOf n r (2 * j + 1) = false := rtOf_false (by rw [show (2 * j + 1) / 2 = j by omega]; exact hjn)
        have k0 := s.kids r (2 * j) r0
        have k1 := s.kids r (2 * j + 1) r1
        rw [show (2 * j) / 2 = j by omega, show (2 * j) % 2 = 0 by omega, hj, nz_some hz] at k0
        rw [show (2 * j + 1) / 2 = j by omega, show (2 * j + 1) % 2 = 1 by omega, hj, nz_some hz] at k1
        have k0' : z.n0 = A r (2 * j) := k0.symm
        have k1' : z.n1 = A r (2 * j + 1) := k1.symm
        rw [div_succ_row] at hjn
        rw [k0', k1', ih (2 * j) k (by omega) (by omega), ih (2 * j + 1) k (by omega) (by omega)]
      rw [countBelow]
      simp only [remember, hp, if_false, hz, cntA, ha, Option.isSome_some, if_true]
      cases hr : rtOf n (r + 1) i with
      | true =>
        simp only [if_true]
        exact key i (by rw [holder_root hr]; exact ha) hi
      | false =>
        simp only [Bool.false_eq_true, if_false]
        have hpar : i / 2 < n / 2 ^ (r + 1 + 1) := by
          by_contra hc
          rw [(rtOf_iff hi).2 hc] at hr; simp at hr
        have hs : rtOf n (r + 1) (i ^^^ 1) = false := rtOf_false (by rw [sb_div]; exact hpar)
        refine key (i ^^^ 1) ?_ ?_
        · rw [holder_sib hs (by rw [sb_sb]; exact hr), sb_sb]; exact ha
        · have h2 := sb_div i
          rw [div_succ_row] at hpar
          omega

theorem sum_map_congr {α β : Type} {f : α → ℕ} {g : β → ℕ} : ∀ (l : List α) (m : List β), l.map f = m.map g → (l.map f).sum = (m.map g).sum :=
  fun _ _ h => by rw [h]

theorem sum_zero : ∀ l : List ℕ, (∀ x ∈ l, x = 0) → l.sum = 0 := by
  intro l
  induction l with
  | nil => intro _; rfl
  | cons a l ih => intro h; rw [List.sum_cons, h a (by simp), ih (fun x hx => h x (by simp [hx]))]

theorem rootCoords_in {n : ℕ} {e : ℕ × ℕ} (h : e ∈ rootCoords n) : e.2 < n / 2 ^ e.1 ∧ e.1 < 64 := by
  unfold rootCoords at h
  obtain ⟨t, ht, rfl⟩ := List.mem_map.1 h
  rw [mem_treeRows] at ht
  exact ⟨Ram.root_in ht.2, ht.1⟩

theorem PH.countNodes_ok {s : Pollard H} {n : ℕ} {A : Addr} {c : ℕ → ℕ → H} (h : PH s n A c) :
    countNodes s = ((rootCoords n).map fun e => cntA n A e.1 e.2).sum := by
  unfold countNodes
  apply sum_map_congr
  have : (s.roots.map fun r => countBelow s.ext (s.ext.length + 66) r.e.node) =
      (s.roots.map fun r => r.e.node).map (countBelow s.ext (s.ext.length + 66)) := by
    rw [List.map_map]; rfl
  rw [this, h.roots.node, List.map_map]
  apply List.map_congr_left
  intro e he
  obtain ⟨h1, h2⟩ := rootCoords_in he
  exact countBelow_ok h.shape e.1 e.2 _ h1 (by omega)

/-! ## Pruning -/

theorem chopRoots_ok : ∀ (rs : List PNode) (heap : List (INode H)), (∀ r ∈ rs, ∃ p, r.e.node = some p ∧ p < heap.length) →
    ∃ heap', chopRoots rs heap = .ok heap' ∧ heap'.length = heap.length ∧ (∀ q, hz heap' q = hz heap q) ∧
      ∀ q b, ((∃ r ∈ rs, r.e.node = some q) → nz heap' (some q) b = none) ∧
        ((¬ ∃ r ∈ rs, r.e.node = some q) → nz heap' (some q) b = nz heap (some q) b) := by
  intro rs
  induction rs with
  | nil => intro heap _; exact ⟨heap, rfl, rfl, fun _ => rfl, fun q b => ⟨by simp, fun _ => rfl⟩⟩
  | cons r rs ih =>
    intro heap h
    obtain ⟨p, h1, h2⟩ := h r (by simp)
    obtain ⟨x, hx⟩ : ∃ x, heap[p]? = some x := ⟨heap[p], List.getElem?_eq_getElem h2⟩
    obtain ⟨heap', e1, e2, e3, e4⟩ := ih (heap.set p (INode.mk x.hash none none)) (by
      intro r hr
      obtain ⟨p, g1, g2⟩ := h r (by simp [hr])
      exact ⟨p, g1, by simpa using g2⟩)
    refine ⟨heap', ?_, by simpa using e2, ?_, ?_⟩
    · rw [chopRoots, h1, deref_ok hx, ok_bind, store_ok h2, ok_bind]
      exact e1
    · intro q
      rw [e3, hz_set h2]
      split
      · next e => subst e; unfold hz; rw [hx]; rfl
      · rfl
    · intro q b
      obtain ⟨f1, f2⟩ := e4 q b
      constructor
      · rintro ⟨r', hr', hq⟩
        by_cases hex : ∃ r ∈ rs, r.e.node = some q
        · exact f1 hex
        · rcases List.mem_cons.1 hr' with rfl | hr'
          · rw [h1] at hq
            obtain rfl := Option.some.inj hq
            rw [f2 hex, nz_set h2, if_pos rfl]
            unfold INode.niece; split <;> rfl
          · exact absurd ⟨r', hr', hq⟩ hex
      · intro hne
        rw [f2 (fun ⟨r', hr', hq⟩ => hne ⟨r', by simp [hr'], hq⟩), nz_set h2]
        split
        · next e => subst e; exact absurd ⟨r, by simp, h1⟩ hne
        · rfl

/-- The objects left by `Prune`. -/
def rootsOnly (n : ℕ) (A : Addr) : Addr := fun r i => if rtOf n r i then A r i else none

theorem rootsOnly_some {n : ℕ} {A : Addr} {r i p : ℕ} (h : rootsOnly n A r i = some p) : rtOf n r i = true ∧ A r i = some p := by
  unfold rootsOnly at h
  split at h
  · exact ⟨by assumption, h⟩
  · simp at h

theorem rt_mem {n r i : ℕ} (h : rtOf n r i = true) (hn : n ≤ 2 ^ 62) : (r, i) ∈ rootCoords n := by
  obtain ⟨h1, rfl⟩ := rtOf_true.1 h
  unfold rootCoords
  refine List.mem_map.2 ⟨r, mem_treeRows.2 ⟨?_, h1⟩, rfl⟩
  by_contra hc
  rw [Nat.testBit_lt_two_pow (lt_of_le_of_lt hn (Nat.pow_lt_pow_right (by omega) (by omega)))] at h1
  simp at h1

theorem pruneAll_ok {s : Pollard H} {n : ℕ} {f : ℕ → H} {A : Addr} (h : Inv s n f A) (hn : n ≤ 2 ^ 62) :
    ∃ s', pruneAll s = .ok s' ∧ Inv s' n f (rootsOnly n A) ∧ numCachedLeaves s' = 0 ∧ s'.posmap = s.posmap := by
  have hr : ∀ r ∈ s.roots, ∃ e ∈ rootCoords n, r.e.node = A e.1 e.2 := by
    intro r hr
    have : r.e.node ∈ s.roots.map (fun r => r.e.node) := List.mem_map_of_mem hr
    rw [h.ph.roots.node] at this
    obtain ⟨e, he, h1⟩ := List.mem_map.1 this
    exact ⟨e, he, h1.symm⟩
  have hr2 : ∀ r i, rtOf n r i = true → ∃ x ∈ s.roots, x.e.node = A r i := by
    intro r i hrt
    have : A r i ∈ (rootCoords n).map (fun c => A c.1 c.2) := List.mem_map.2 ⟨(r, i), rt_mem hrt hn, rfl⟩
    rw [← h.ph.roots.node] at this
    obtain ⟨x, hx, h1⟩ := List.mem_map.1 this
    exact ⟨x, hx, h1⟩
  have ptr : ∀ r ∈ s.roots, ∃ p, r.e.node = some p ∧ p < s.ext.length ∧ p ≠ 0 := by
    intro r hr'
    obtain ⟨e, he, h1⟩ := hr r hr'
    obtain ⟨p, hp⟩ := Option.isSome_iff_exists.1 (h.ph.shape.root _ _ (mem_rootCoords he))
    have := h.ph.shape.bnd _ _ _ hp
    exact ⟨p, by rw [h1, hp], this.2, this.1⟩
  obtain ⟨heap', e1, e2, e3, e4⟩ := chopRoots_ok s.roots s.ext (fun r hr' => by
    obtain ⟨p, a, b, -⟩ := ptr r hr'
    exact ⟨p, a, b⟩)
  have cut : ∀ r i p b, rootsOnly n A r i = some p → nz heap' (some p) b = none := by
    intro r i p b hp
    obtain ⟨h1, h2⟩ := rootsOnly_some hp
    obtain ⟨x, hx, h3⟩ := hr2 r i h1
    exact (e4 p b).1 ⟨x, hx, by rw [h3, h2]⟩
  have hrem : numCachedLeaves (Acc.mk s.numLeaves s.roots s.posmap heap') = 0 := by
    unfold numCachedLeaves
    apply sum_zero
    intro x hx
    obtain ⟨r, hr', rfl⟩ := List.mem_map.1 hx
    obtain ⟨p, p1, p2, p3⟩ := ptr r hr'
    have hp' : p < heap'.length := by rw [e2]; exact p2
    obtain ⟨z, hz⟩ : ∃ z, heap'[p]? = some z := ⟨heap'[p], List.getElem?_eq_getElem hp'⟩
    have z0 := (e4 p 0).1 ⟨r, hr', p1⟩
    have z1 := (e4 p 1).1 ⟨r, hr', p1⟩
    rw [nz_some hz] at z0 z1
    have z0' : z.n0 = none := z0
    have z1' : z.n1 = none := z1
    show countRemember heap' (heap'.length + 65 + 1) r.e.node = 0
    rw [p1, countRemember]
    simp only [remember, p3, if_false, hz, z0', z1']
    rfl
  refine ⟨Acc.mk s.numLeaves s.roots s.posmap heap', ?_, ⟨⟨h.ph.num, ⟨?_, ?_, ?_, ?_, ?_, ?rank⟩, ?_, ?_, ?_⟩, ?_⟩, hrem, rfl⟩
  case rank =>
    refine h.ph.shape.rank.mono (le_of_eq e2.symm) (fun r i p hp => (rootsOnly_some hp).2) fun p b _ => ?_
    by_cases hc : ∃ r ∈ s.roots, r.e.node = some p
    · exact .inl ((e4 p b).1 hc)
    · exact .inr ((e4 p b).2 hc)
  · unfold pruneAll
    rw [e1, ok_bind]
    simp only
    rw [cassert_true (by rw [decide_eq_true_eq]; exact hrem), ok_bind]
    rfl
  · intro r y hy
    have : rootsOnly n A r y = none := by unfold rootsOnly; rw [hy]; rfl
    rw [this]
    cases hh : holder (rtOf n) (rootsOnly n A) (r + 1) (y / 2) with
    | none => rfl
    | some p =>
      obtain ⟨j, hj⟩ := holder_addr hh
      exact (cut _ _ _ _ hj).symm
  · intro r i r' i' p h1 h2
    exact h.ph.shape.inj _ _ _ _ _ (rootsOnly_some h1).2 (rootsOnly_some h2).2
  · intro r i p h1
    rw [show (Acc.mk s.numLeaves s.roots s.posmap heap').ext.length = s.ext.length from e2]
    exact h.ph.shape.bnd _ _ _ (rootsOnly_some h1).2
  · intro i
    cases hh : rootsOnly n A 0 i with
    | none => simp [nz]
    | some p => exact ⟨cut _ _ _ _ hh, .inl (cut _ _ _ _ hh)⟩
  · intro r i hrt
    unfold rootsOnly
    rw [if_pos hrt]; exact h.ph.shape.root r i hrt
  · intro r i p h1
    have := h.ph.hashed r i p (rootsOnly_some h1).2
    have h3 := e3 p
    unfold hz at h3
    rw [this] at h3; exact h3
  · have key : (rootCoords n).map (fun c => rootsOnly n A c.1 c.2) = (rootCoords n).map fun c => A c.1 c.2 := by
      apply List.map_congr_left
      intro e he
      unfold rootsOnly
      rw [if_pos (mem_rootCoords he)]
    exact ⟨by rw [key]; exact h.ph.roots.node, by rw [key]; exact h.ph.roots.sib, h.ph.roots.up⟩
  · show 0 < heap'.length
    rw [e2]; exact h.ph.pos
  · intro r y hy
    unfold rootsOnly
    rw [h.out r y hy]
    split <;> rfl

theorem cnt_rootsOnly {n : ℕ} {A : Addr} {r i : ℕ} (hs : (A r i).isSome) (hi : i < n / 2 ^ r) (h : rtOf n r i = true) :
    cntA n (rootsOnly n A) r i = 1 := by
  have h0 : (rootsOnly n A r i).isSome := by unfold rootsOnly; rw [if_pos h]; exact hs
  cases r with
  | zero => rw [cntA, if_pos h0]
  | succ r =>
    have z : ∀ b, b < 2 → cntA n (rootsOnly n A) r (2 * i + b) = 0 := by
      intro b hb
      have : rootsOnly n A r (2 * i + b) = none := by
        unfold rootsOnly
        rw [rtOf_false (by rw [show (2 * i + b) / 2 = i by omega]; exact hi)]; rfl
      cases r with
      | zero => rw [cntA, this]; rfl
      | succ r => rw [cntA, this]; rfl
    rw [cntA, if_pos h0]
    simp only [h, if_true]
    rw [show cntA n (rootsOnly n A) r (2 * i) = 0 from z 0 (by omega), z 1 (by omega)]

/-! ## Restoring from roots -/

theorem mkRoots_ok : ∀ (hs : List H) (ps : List ℕ) (heap : List (INode H)), ps.length = hs.length →
    ∃ rs, mkRoots hs ps heap = .ok (rs, heap ++ hs.map fresh) ∧
      rs.map (fun r => r.e.node) = (List.range' heap.length hs.length).map some ∧
      rs.map (fun r => r.e.sib) = (List.range' heap.length hs.length).map some ∧ ∀ r ∈ rs, r.up = [] := by
  intro hs
  induction hs with
  | nil => intro ps heap _; exact ⟨[], by rw [mkRoots]; simp, rfl, rfl, by simp⟩
  | cons h hs ih =>
    intro ps heap hl
    cases ps with
    | nil => simp at hl
    | cons p ps =>
      obtain ⟨rs, e1, e2, e3, e4⟩ := ih ps (heap ++ [fresh h]) (by simpa using hl)
      refine ⟨PNode.mk ⟨some heap.length, some heap.length, p⟩ [] :: rs, ?_, ?_, ?_, ?_⟩
      · rw [mkRoots]
        have e1' : mkRoots hs ps (heap ++ [INode.mk h none none]) = .ok (rs, heap ++ [fresh h] ++ hs.map fresh) := e1
        simp only [e1', ok_bind]
        rw [List.append_assoc]; rfl
      · rw [List.map_cons, e2, List.length_cons, List.range'_succ, List.map_cons]
        simp
      · rw [List.map_cons, e3, List.length_cons, List.range'_succ, List.map_cons]
        simp
      · intro r hr
        rcases List.mem_cons.1 hr with rfl | hr
        · rfl
        · exact e4 r hr

/-- The objects of a pollard restored from roots. -/
def rootAddr (n : ℕ) : Addr := fun r i => if rtOf n r i then some (1 + (treeRows n 64).idxOf r) else none

theorem rootAddr_some {n r i p : ℕ} (h : rootAddr n r i = some p) : rtOf n r i = true ∧ p = 1 + (treeRows n 64).idxOf r := by
  unfold rootAddr at h
  split at h
  · exact ⟨by assumption, (Option.some.inj h).symm⟩
  · simp at h

theorem fromRoots_ok {n : ℕ} (hn : n ≤ 2 ^ 62) (f : ℕ → H) :
    ∃ s, fromRoots (merkleRoots HashOps.ph f n) n = .ok s ∧ Inv s n f (rootAddr n) ∧ s.posmap = [] ∧
      ∀ x, ¬ Flag s.ext (rtOf n) (rootAddr n) x := by
  have hlen : (merkleRoots HashOps.ph f n).length = (treeRows n 64).length := by unfold merkleRoots; simp
  have hnd : (treeRows n 64).Nodup := (treeRows_sorted n 64).imp (fun h => by omega)
  have hnum : (treeRows n 64).length = St.numRoots n := by rw [treeRows_length, C01_numRoots]
  obtain ⟨rs, e1, e2, e3, e4⟩ := mkRoots_ok (merkleRoots HashOps.ph f n)
    ((treeRows n (St.numRows n + 1)).map fun t => posOf (St.numRows n) t (rootIdx n t)) (mk (H := H) n).ext (by
      rw [List.length_map, Ram.treeRows_eq hn le_rfl, hlen])
  have hrt : ∀ r i, rtOf n r i = true → r ∈ treeRows n 64 := by
    intro r i h
    have := rt_mem h hn
    unfold rootCoords at this
    obtain ⟨t, ht, h1⟩ := List.mem_map.1 this
    simp only [Prod.mk.injEq] at h1
    rw [← h1.1]; exact ht
  have key : (rootCoords n).map (fun c => rootAddr n c.1 c.2) =
      (List.range' (mk (H := H) n).ext.length (merkleRoots HashOps.ph f n).length).map some := by
    rw [hlen]
    apply List.ext_getElem?
    intro i
    unfold rootCoords
    rw [List.map_map, List.getElem?_map, List.getElem?_map]
    by_cases hi : i < (treeRows n 64).length
    · rw [List.getElem?_eq_getElem hi, List.getElem?_eq_getElem (by simpa using hi)]
      simp only [Option.map_some, Function.comp_apply, List.getElem_range', Nat.one_mul]
      unfold rootAddr
      have hm : (treeRows n 64)[i] ∈ treeRows n 64 := List.getElem_mem hi
      rw [if_pos (rtOf_true.2 ⟨(mem_treeRows.1 hm).2, rfl⟩), hnd.idxOf_getElem i hi]
      rfl
    · rw [List.getElem?_eq_none (by omega), List.getElem?_eq_none (by simp; omega)]
      rfl
  have hobj : ∀ r i p, rootAddr n r i = some p →
      ((mk (H := H) n).ext ++ (merkleRoots HashOps.ph f n).map fresh)[p]? = some (fresh (mt f r i)) := by
    intro r i p hp
    obtain ⟨h1, rfl⟩ := rootAddr_some hp
    have hm := hrt r i h1
    have hl := List.idxOf_lt_length_of_mem hm
    rw [List.getElem?_append_right (by unfold mk; simp)]
    have : 1 + (treeRows n 64).idxOf r - (mk (H := H) n).ext.length = (treeRows n 64).idxOf r := by unfold mk; simp
    rw [this, List.getElem?_map]
    unfold merkleRoots
    rw [List.getElem?_map, List.getElem?_idxOf hm]
    obtain ⟨-, rfl⟩ := rtOf_true.1 h1
    rfl
  have hnz : ∀ r i p b, rootAddr n r i = some p →
      nz ((mk (H := H) n).ext ++ (merkleRoots HashOps.ph f n).map fresh) (some p) b = none := by
    intro r i p b hp
    rw [nz_some (hobj r i p hp)]
    unfold INode.niece fresh; split <;> rfl
  refine ⟨Acc.mk n rs [] ((mk (H := H) n).ext ++ (merkleRoots HashOps.ph f n).map fresh), ?_,
    ⟨⟨rfl, ⟨?_, ?_, ?_, ?_, ?_, ?rank⟩, ?_, ⟨by rw [key]; exact e2, by rw [key]; exact e3, e4⟩, ?_⟩, ?_⟩, rfl, fun x hx => ?_⟩
  case rank =>
    refine ⟨fun p => if p = 0 then 0 else (treeRows n 64).getD (p - 1) 0 + 1, rfl, fun r i p hp => ?_, fun p b k hb hk => ?_⟩
    · obtain ⟨h1, rfl⟩ := rootAddr_some hp
      have hm := hrt r i h1
      have hl := List.idxOf_lt_length_of_mem hm
      simp only [if_neg (show ¬ 1 + (treeRows n 64).idxOf r = 0 by omega), Nat.add_sub_cancel_left]
      rw [List.getD_eq_getElem?_getD, List.getElem?_idxOf hm]; rfl
    · exfalso
      have hno : ∀ x ∈ (mk (H := H) n).ext ++ (merkleRoots HashOps.ph f n).map fresh, INode.niece x b = none := by
        intro x hx
        rcases List.mem_append.1 hx with h | h
        · unfold mk at h
          simp only [List.mem_singleton] at h
          rw [h]; unfold INode.niece; split <;> rfl
        · obtain ⟨g, -, rfl⟩ := List.mem_map.1 h
          unfold INode.niece fresh; split <;> rfl
      unfold nz at hk
      rw [Option.bind_some] at hk
      cases hx : ((mk (H := H) n).ext ++ (merkleRoots HashOps.ph f n).map fresh)[p]? with
      | none => rw [hx] at hk; simp at hk
      | some x => rw [hx, Option.bind_some, hno x (List.mem_of_getElem? hx)] at hk; simp at hk
  · unfold fromRoots
    simp only
    rw [cassert_true (by rw [decide_eq_true_eq, hlen, hnum]), ok_bind, rootPositions_eq hn, ok_bind,
      cassert_true (by rw [decide_eq_true_eq, List.length_map, Ram.treeRows_eq hn le_rfl, hlen]), ok_bind, e1, ok_bind]
    rfl
  · intro r y hy
    have : rootAddr n r y = none := by unfold rootAddr; rw [hy]; rfl
    rw [this]
    cases hh : holder (rtOf n) (rootAddr n) (r + 1) (y / 2) with
    | none => rfl
    | some p =>
      obtain ⟨j, hj⟩ := holder_addr hh
      exact (hnz _ _ _ _ hj).symm
  · intro r i r' i' p h1 h2
    obtain ⟨a1, a2⟩ := rootAddr_some h1
    obtain ⟨b1, b2⟩ := rootAddr_some h2
    have : (treeRows n 64).idxOf r = (treeRows n 64).idxOf r' := by omega
    have hr := (List.idxOf_inj (hrt _ _ a1)).1 this
    subst hr
    exact ⟨rfl, by rw [(rtOf_true.1 a1).2, (rtOf_true.1 b1).2]⟩
  · intro r i p h1
    refine ⟨?_, lt_of_get (hobj r i p h1)⟩
    have := (rootAddr_some h1).2
    omega
  · intro i
    cases hh : rootAddr n 0 i with
    | none => simp [nz]
    | some p => exact ⟨hnz _ _ _ _ hh, .inl (hnz _ _ _ _ hh)⟩
  · intro r i h
    unfold rootAddr
    rw [if_pos h]; rfl
  · intro r i p h1
    show ((_ : List (INode H))[p]?).map INode.hash = _
    rw [hobj r i p h1]; rfl
  · show 0 < ((mk (H := H) n).ext ++ _).length
    unfold mk; simp
  · intro r y hy
    unfold rootAddr
    split
    · next h =>
      obtain ⟨h1, rfl⟩ := rtOf_true.1 h
      exact absurd (Ram.root_in h1) hy
    · rfl
  · obtain ⟨p, h1, h2⟩ := hx.holder
    obtain ⟨j, hj⟩ := holder_addr h1
    have h3 : (nz ((mk (H := H) n).ext ++ (merkleRoots HashOps.ph f n).map fresh) (some p) 0).isSome := h2
    rw [hnz _ _ _ _ hj] at h3
    simp at h3

theorem mk_ok (f : ℕ → H) : ∃ A, Inv (mk 0 : Pollard H) 0 f A := by
  refine ⟨fun _ _ => none, ⟨⟨rfl, ⟨?_, ?_, ?_, ?_, ?_, ?rank⟩, ?_, ?_, ?_⟩, ?_⟩⟩
  case rank =>
    refine ⟨fun _ => 0, rfl, fun r i p h => by simp at h, fun p b k _ hk => ?_⟩
    exfalso
    unfold nz mk at hk
    rw [Option.bind_some] at hk
    cases p with
    | zero => simp [INode.niece] at hk
    | succ p => simp at hk
  · intro r y _
    unfold holder
    split
    · rfl
    · split <;> rfl
  · intro r i r' i' p h; simp at h
  · intro r i p h; simp at h
  · intro i; simp [nz]
  · intro r i h; rw [rtOf_true] at h; simp at h
  · intro r i p h; simp at h
  · have : rootCoords 0 = [] := by unfold rootCoords; simp [treeRows]
    exact ⟨by rw [this]; rfl, by rw [this]; rfl, fun r hr => by simp [mk] at hr⟩
  · show 0 < [_].length; simp
  · intro r y _; rfl

/-! ## Proofs -/

theorem map_inj_on {α β : Type} {g : α → β} : ∀ (l m : List α), (∀ x ∈ l, ∀ y ∈ m, g x = g y → x = y) → l.map g = m.map g → l = m := by
  intro l
  induction l with
  | nil => intro m _ h; cases m with
    | nil => rfl
    | cons a t => simp at h
  | cons a l ih =>
    intro m hi h
    cases m with
    | nil => simp at h
    | cons b m =>
      simp only [List.map_cons, List.cons.injEq] at h
      rw [hi a (by simp) b (by simp) h.1, ih m (fun x hx y hy => hi x (by simp [hx]) y (by simp [hy])) h.2]

theorem ProofNode.inn {n : ℕ} {T : List ℕ} {r k : ℕ} (h : ProofNode n T r k) : k < n / 2 ^ r := by
  obtain ⟨j, b, hb2, rfl, hf, -, -⟩ := h
  rw [inForest_iff] at hf
  have := Ram.child_bound hf
  omega

theorem nodes_inj {n : ℕ} (hn : n ≤ 2 ^ 62) {l m : List (ℕ × ℕ)} (hl : ∀ p ∈ l, p.2 < n / 2 ^ p.1) (hm : ∀ p ∈ m, p.2 < n / 2 ^ p.1)
    (h : l.map (fun p => posOf (St.numRows n) p.1 p.2) = m.map fun p => posOf (St.numRows n) p.1 p.2) : l = m := by
  refine map_inj_on l m ?_ h
  rintro ⟨r, k⟩ hx ⟨r', k'⟩ hy e
  obtain ⟨-, i1⟩ := row_le hn (hl _ hx)
  obtain ⟨-, i2⟩ := row_le hn (hm _ hy)
  obtain ⟨rfl, rfl⟩ := posOf_inj i1 i2 e
  rfl

/-- The proof nodes as the rows of the plan. -/
theorem spec_nodes {n : ℕ} {D : List ℕ} (hD : Sane n D) {nodes : List (ℕ × ℕ)}
    (hs : nodes.Pairwise (fun a b => posOf (St.numRows n) a.1 a.2 < posOf (St.numRows n) b.1 b.2))
    (hm : ∀ r k, (r, k) ∈ nodes ↔ ProofNode n D r k) :
    nodes = (List.range' 0 (St.numRows n + 1)).flatMap fun q => (Pn n D q).map fun x => (q, x) := by
  obtain ⟨nodes0, comp, p1, p2, p3, p4⟩ := Ram.proof_nodes hD.n62 hD.sorted hD.lt
  have h0 : nodes = nodes0 := by
    refine nodes_inj hD.n62 (fun p hp => ProofNode.inn ((hm p.1 p.2).1 hp)) p4 ?_
    refine sorted_ext hD (List.pairwise_map.2 hs) (List.pairwise_map.2 p2) ?_
    intro x
    simp only [List.mem_map]
    constructor
    · rintro ⟨⟨r, k⟩, h, rfl⟩; exact ⟨(r, k), (p3 r k).2 ((hm r k).1 h), rfl⟩
    · rintro ⟨⟨r, k⟩, h, rfl⟩; exact ⟨(r, k), (hm r k).2 ((p3 r k).1 h), rfl⟩
  rw [h0]
  refine nodes_inj hD.n62 p4 ?_ ?_
  · intro p hp
    obtain ⟨q, -, hq⟩ := List.mem_flatMap.1 hp
    obtain ⟨x, hx, rfl⟩ := List.mem_map.1 hq
    exact Pn_in hD hx
  · rw [proofPositions_rows hD] at p1
    have := (Prod.mk.inj (Except.ok.inj p1)).1
    rw [← this, List.map_flatMap]
    congr 1
    funext q
    rw [List.map_map]; rfl

theorem hon_of {n : ℕ} {D : List ℕ} (hD : Sane n D) {nodes : List (ℕ × ℕ)}
    (hs : nodes.Pairwise (fun a b => posOf (St.numRows n) a.1 a.2 < posOf (St.numRows n) b.1 b.2))
    (hm : ∀ r k, (r, k) ∈ nodes ↔ ProofNode n D r k) (c : ℕ → ℕ → H) :
    nodes.map (fun a => c a.1 a.2) = (List.range' 0 (St.numRows n + 1)).flatMap fun q => (Pn n D q).map (c q) := by
  rw [spec_nodes hD hs hm, List.map_flatMap]
  congr 1
  funext q
  rw [List.map_map]; rfl

/-- Reading the proof hashes from a pollard. -/
theorem readProof_ok {s : Pollard H} {n : ℕ} {A : Addr} {c : ℕ → ℕ → H} (h : PH s n A c) (hn : n ≤ 2 ^ 62) :
    ∀ nodes : List (ℕ × ℕ), (∀ p ∈ nodes, p.2 < n / 2 ^ p.1) →
    ((∀ p ∈ nodes, (A p.1 p.2).isSome) ∧
      Acc.readProof vt s (nodes.map fun p => posOf (St.numRows n) p.1 p.2) = .ok (some (nodes.map fun p => c p.1 p.2))) ∨
    ((∃ p ∈ nodes, A p.1 p.2 = none) ∧ Acc.readProof vt s (nodes.map fun p => posOf (St.numRows n) p.1 p.2) = .ok none) := by
  intro nodes
  induction nodes with
  | nil => intro _; exact .inl ⟨by simp, rfl⟩
  | cons p nodes ih =>
    intro hh
    have hr : vt.read s (posOf (St.numRows n) p.1 p.2) = .ok ((A p.1 p.2).map fun _ => c p.1 p.2) := h.read_ok hn (hh p (by simp))
    rw [List.map_cons, Acc.readProof, hr, ok_bind]
    cases ha : A p.1 p.2 with
    | none => exact .inr ⟨⟨p, by simp, ha⟩, rfl⟩
    | some q =>
      simp only [Option.map_some]
      rcases ih (fun q hq => hh q (by simp [hq])) with ⟨h1, h2⟩ | ⟨⟨x, hx, h1⟩, h2⟩
      · left
        rw [h2]
        refine ⟨?_, rfl⟩
        intro x hx
        rcases List.mem_cons.1 hx with rfl | hx
        · rw [ha]; rfl
        · exact h1 x hx
      · right
        rw [h2]
        exact ⟨⟨x, by simp [hx], h1⟩, rfl⟩

end Pol
end Utreexo
