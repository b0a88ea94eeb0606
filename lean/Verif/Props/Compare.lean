import Verif.Props.Track
import Verif.Props.Batch
import Verif.Proof.Unique

/-!
# Comparing accumulators, proofs and undo batches

C48 (the equality operators), C49 (`ComparePositionMap`).
-/

set_option linter.unusedSectionVars false

namespace Utreexo
open Spec Equiv

section Generic
variable {H : Type} [DecidableEq H] [HashOps H]

theorem PosMap.mem_iff_find {m : PosMap H} (hu : PosMap.Uniq m) (e : H × ℕ) : e ∈ m ↔ PosMap.find m e.1 = some e.2 := by
  induction m with
  | nil => simp [PosMap.find]
  | cons a m ih =>
    obtain ⟨k, v⟩ := a
    obtain ⟨x, y⟩ := e
    unfold PosMap.Uniq at hu
    rw [List.map_cons, List.nodup_cons] at hu
    rw [PosMap.find, List.mem_cons]
    by_cases hk : k = x
    · subst hk
      simp only [if_true, Prod.mk.injEq, true_and, Option.some.injEq]
      constructor
      · rintro (h | h)
        · exact h.symm
        · exact absurd (List.mem_map_of_mem (f := Prod.fst) h) hu.1
      · exact fun h => .inl h.symm
    · rw [if_neg hk, ← ih hu.2]
      simp [Ne.symm hk]

/-! ## C48: equality of forests -/

/-- C48: comparing two forests never faults and tells whether they hold the same leaves in the same order, whatever the two
histories. -/
theorem C48_forest (s t : RamForest H) (st st' : List (UndoBatch H × RamForest H)) (h : Ram.Run s st) (h' : Ram.Run t st')
    (L M : List H) (hL : Ram.Represents s L) (hM : Ram.Represents t M) : Ram.equal s t = .ok (decide (L = M)) := by
  obtain ⟨n, f, h1, h2, -⟩ := h.inv
  have hu := h1.pos.uniq
  unfold Ram.equal
  rw [hL.roots, ok_bind, hM.roots, ok_bind]
  by_cases e : L = M
  · subst e
    have : PosMap.equal s.posmap t.posmap = true := by
      unfold PosMap.equal
      rw [hL.size, hM.size]
      simp only [beq_self_eq_true, Bool.true_and, List.all_eq_true, beq_iff_eq]
      intro e he
      rw [PosMap.mem_iff_find hu] at he
      exact (hM.find _ _).2 ((hL.find _ _).1 he)
    rw [hL.count, hM.count, this]
    simp [pure, Except.pure]
  · have : PosMap.equal s.posmap t.posmap = false := by
      rw [Bool.eq_false_iff]
      intro hc
      unfold PosMap.equal at hc
      rw [hL.size, hM.size, Bool.and_eq_true, List.all_eq_true, beq_iff_eq] at hc
      apply e
      apply List.ext_getElem?
      intro i
      by_cases hi : i < L.length
      · have h1 : L[i]? = some L[i] := List.getElem?_eq_getElem hi
        have := hc.2 _ ((PosMap.mem_iff_find hu (L[i], i)).2 ((hL.find _ _).2 h1))
        rw [beq_iff_eq] at this
        rw [h1, (hM.find _ _).1 this]
      · rw [List.getElem?_eq_none (by omega), List.getElem?_eq_none (by omega)]
    rw [this, Bool.and_false]
    simp [e, pure, Except.pure]

/-- C48: so two forests compare equal exactly if nothing a caller can see tells them apart. -/
theorem C48_same (s t : RamForest H) (st st' : List (UndoBatch H × RamForest H)) (h : Ram.Run s st) (h' : Ram.Run t st') :
    ∃ b, Ram.equal s t = .ok b ∧ (b = true ↔ Ram.Same s t) := by
  obtain ⟨L, hL, -⟩ := C16_represents s st h
  obtain ⟨M, hM, -⟩ := C16_represents t st' h'
  refine ⟨_, C48_forest s t st st' h h' L M hL hM, ?_⟩
  rw [decide_eq_true_iff]
  constructor
  · rintro rfl
    exact hL.same hM
  · intro hs
    apply List.ext_getElem?
    intro i
    cases hi : L[i]? with
    | some x => exact ((hM.find x i).1 (by rw [← hs.find]; exact (hL.find x i).2 hi)).symm
    | none =>
      rw [List.getElem?_eq_none_iff] at hi
      rw [List.getElem?_eq_none]
      rw [← hM.count, ← hs.count, hL.count]
      exact hi

/-- C48: undoing a modification gives a forest equal to the one before, and so does opening the file again. -/
theorem C48_undo (s : RamForest H) (st : List (UndoBatch H × RamForest H)) (h : Ram.Run s st) (L : List H)
    (hL : Ram.Represents s L) (leaves : List (Leaf H)) (targets : List ℕ) (hv : Ram.Valid L (leaves.map Prod.fst) targets) :
    (∃ u s' s'', Ram.modify s leaves targets = .ok (true, some u, s') ∧ Ram.undo s' u = .ok (true, s'') ∧
      Ram.equal s'' s = .ok true ∧ Ram.equal s s'' = .ok true) ∧
    ∃ s', Ram.reopen s = .ok s' ∧ Ram.equal s' s = .ok true ∧ Ram.equal s s' = .ok true := by
  constructor
  · obtain ⟨u, s', s'', e1, e2, e3, -⟩ := C20_undo s st h L hL leaves targets hv
    have hr : Ram.Run s'' st := .undo (.modify h hL hv e1) e2
    refine ⟨u, s', s'', e1, e2, ?_, ?_⟩
    · rw [C48_forest s'' s st st hr h L L e3 hL]; simp
    · rw [C48_forest s s'' st st h hr L L hL e3]; simp
  · obtain ⟨n, f, h1, h2, -⟩ := h.inv
    obtain ⟨s', k1, k2, -⟩ := Ram.reopen_ok h1 h2
    obtain rfl := hL.unique (h1.represents h2)
    have hr : Ram.Run s' [] := .reopen h k1 (by simp) (by simp)
    refine ⟨s', k1, ?_, ?_⟩
    · rw [C48_forest s' s [] st hr h _ _ (k2.represents h2) hL]; simp
    · rw [C48_forest s s' st [] h hr _ _ hL (k2.represents h2)]; simp

/-! ## C49: comparing position maps -/

/-- `ComparePositionMap` if the other map has all keys. -/
theorem comparePositionMap_ok {N X N' X' : Type} (s : Acc H N X) (t : Acc H N' X') (hu : PosMap.Uniq s.posmap)
    (hk : ∀ x, (PosMap.find s.posmap x).isSome → (PosMap.find t.posmap x).isSome) :
    ∃ b, Acc.comparePositionMap s t = .ok b ∧
      (b = true ↔ ∀ x i, PosMap.find s.posmap x = some i → PosMap.find t.posmap x = some i) := by
  have key : ∀ m : PosMap H, (∀ e ∈ m, (PosMap.find t.posmap e.1).isSome) →
      ∃ b, Acc.comparePositionMap.go t m = .ok b ∧ (b = true ↔ ∀ e ∈ m, PosMap.find t.posmap e.1 = some e.2) := by
    intro m
    induction m with
    | nil => intro _; exact ⟨true, rfl, by simp⟩
    | cons e m ih =>
      intro hm
      obtain ⟨x, p⟩ := e
      obtain ⟨q, hq⟩ := Option.isSome_iff_exists.1 (hm (x, p) (by simp))
      obtain ⟨b, b1, b2⟩ := ih fun e he => hm e (by simp [he])
      simp only at hq
      unfold Acc.comparePositionMap.go
      rw [hq]
      simp only
      by_cases hp : q = p
      · subst hp
        refine ⟨b, by simpa using b1, ?_⟩
        rw [b2]
        simp [hq]
      · refine ⟨false, by simp [hp], ?_⟩
        simp only [Bool.false_eq_true, false_iff]
        intro hc
        have := hc (x, p) (by simp)
        rw [hq] at this
        exact hp (Option.some.inj this)
  obtain ⟨b, b1, b2⟩ := key s.posmap (by
    intro e he
    exact hk _ (by rw [(PosMap.mem_iff_find hu e).1 he]; rfl))
  refine ⟨b, b1, b2.trans ?_⟩
  constructor
  · intro hh x i hx
    exact hh (x, i) ((PosMap.mem_iff_find hu (x, i)).2 hx)
  · intro hh e he
    exact hh _ _ ((PosMap.mem_iff_find hu e).1 he)

/-- C49, between forests, as far as it holds: if all leaves of `s` are leaves of `t`, the comparison answers, and it tells
whether the leaves of `s` are the first leaves of `t`. Missing: a leaf of `s` that is not a leaf of `t`. -/
theorem C49_forest_partial (s t : RamForest H) (st st' : List (UndoBatch H × RamForest H)) (h : Ram.Run s st)
    (h' : Ram.Run t st') (L M : List H) (hL : Ram.Represents s L) (hM : Ram.Represents t M) (hsub : ∀ x ∈ L, x ∈ M) :
    ∃ b, Acc.comparePositionMap s t = .ok b ∧ (b = true ↔ L <+: M) := by
  obtain ⟨n, f, h1, h2, -⟩ := h.inv
  obtain ⟨b, b1, b2⟩ := comparePositionMap_ok s t h1.pos.uniq (by
    intro x hx
    obtain ⟨i, hi⟩ := Option.isSome_iff_exists.1 hx
    obtain ⟨j, hj⟩ := List.mem_iff_getElem?.1 (hsub x (List.mem_of_getElem? ((hL.find x i).1 hi)))
    rw [(hM.find x j).2 hj]; rfl)
  refine ⟨b, b1, b2.trans ?_⟩
  rw [List.prefix_iff_getElem?]
  constructor
  · intro hh i hi
    exact (hM.find _ _).1 (hh _ _ ((hL.find _ _).2 (List.getElem?_eq_getElem hi)))
  · intro hh x i hx
    have hx' := (hL.find x i).1 hx
    obtain ⟨hi, rfl⟩ := List.getElem?_eq_some_iff.1 hx'
    exact (hM.find _ _).2 (hh i hi)

/-- The outcome of the comparison is that of the first entry that does not agree. -/
theorem comparePositionMap_go_append {N' X' : Type} (t : Acc H N' X') (m m' : PosMap H)
    (hm : ∀ e ∈ m, PosMap.find t.posmap e.1 = some e.2) :
    Acc.comparePositionMap.go t (m ++ m') = Acc.comparePositionMap.go t m' := by
  induction m with
  | nil => rfl
  | cons e m ih =>
    obtain ⟨x, p⟩ := e
    have h := hm (x, p) (by simp)
    simp only at h
    rw [List.cons_append, Acc.comparePositionMap.go, h]
    simpa using ih fun e he => hm e (by simp [he])

/-- The three outcomes of the comparison. -/
theorem comparePositionMap_go_cases {N' X' : Type} (t : Acc H N' X') (m : PosMap H) :
    (Acc.comparePositionMap.go t m = .ok true ∧ ∀ e ∈ m, PosMap.find t.posmap e.1 = some e.2) ∨
    (Acc.comparePositionMap.go t m = .ok false ∧ ∃ e ∈ m, ∃ q, PosMap.find t.posmap e.1 = some q ∧ q ≠ e.2) ∨
    (Acc.comparePositionMap.go t m = .error .ub ∧ ∃ e ∈ m, PosMap.find t.posmap e.1 = none) := by
  induction m with
  | nil => exact .inl ⟨rfl, by simp⟩
  | cons e m ih =>
    obtain ⟨x, p⟩ := e
    rw [Acc.comparePositionMap.go]
    rcases hf : PosMap.find t.posmap x with _ | q
    · exact .inr (.inr ⟨rfl, (x, p), by simp, hf⟩)
    · by_cases hq : q = p
      · subst hq
        simp only [ne_eq, not_true_eq_false, if_false]
        rcases ih with ⟨h, a⟩ | ⟨h, e, he, a⟩ | ⟨h, e, he, a⟩
        · refine .inl ⟨h, ?_⟩
          intro e he
          rcases List.mem_cons.1 he with rfl | he
          · exact hf
          · exact a e he
        · exact .inr (.inl ⟨h, e, by simp [he], a⟩)
        · exact .inr (.inr ⟨h, e, by simp [he], a⟩)
      · exact .inr (.inl ⟨by simp [hq], (x, p), by simp, q, hf, hq⟩)

/-- C49, exactly, between forests: the outcomes of the comparison over all the orders `m` in which the C++ may iterate over
the map of `s`. `true` is an outcome iff the leaves of `s` are the first leaves of `t`, and then the only one; `false` is an
outcome iff a leaf of `s` is a leaf of `t` elsewhere; the undefined behaviour is one iff a leaf of `s` is not a leaf of `t`. -/
theorem C49_exact (s t : RamForest H) (st st' : List (UndoBatch H × RamForest H)) (h : Ram.Run s st) (_ : Ram.Run t st')
    (L M : List H) (hL : Ram.Represents s L) (hM : Ram.Represents t M) :
    (∀ m, m.Perm s.posmap → Acc.comparePositionMap { s with posmap := m } t ∈ [.ok true, .ok false, .error .ub]) ∧
    (∀ m, m.Perm s.posmap → (Acc.comparePositionMap { s with posmap := m } t = .ok true ↔ L <+: M)) ∧
    ((∃ m, m.Perm s.posmap ∧ Acc.comparePositionMap { s with posmap := m } t = .ok false) ↔
      ∃ (x : H) (i j : ℕ), L[i]? = some x ∧ M[j]? = some x ∧ i ≠ j) ∧
    ((∃ m, m.Perm s.posmap ∧ Acc.comparePositionMap { s with posmap := m } t = .error .ub) ↔ ∃ x ∈ L, x ∉ M) := by
  obtain ⟨n, f, h1, h2, -⟩ := h.inv
  have hu := h1.pos.uniq
  have hmem : ∀ m : PosMap H, List.Perm m s.posmap → ∀ e : H × ℕ, e ∈ m ↔ L[e.2]? = some e.1 := by
    intro m hm e
    rw [hm.mem_iff, PosMap.mem_iff_find hu, hL.find]
  have front : ∀ e : H × ℕ, e ∈ s.posmap → ∃ m : PosMap H, List.Perm m s.posmap ∧ ∃ r, m = e :: r := fun e he =>
    ⟨e :: List.erase s.posmap e, (List.perm_cons_erase he).symm, _, rfl⟩
  have hagree : (∀ e : H × ℕ, L[e.2]? = some e.1 → PosMap.find t.posmap e.1 = some e.2) ↔ L <+: M := by
    rw [List.prefix_iff_getElem?]
    constructor
    · intro hh i hi
      exact (hM.find _ _).1 (hh (L[i], i) (List.getElem?_eq_getElem hi))
    · rintro hh ⟨x, i⟩ hx
      simp only at hx ⊢
      obtain ⟨hi, rfl⟩ := List.getElem?_eq_some_iff.1 hx
      exact (hM.find _ _).2 (hh i hi)
  have hnone : ∀ x, PosMap.find t.posmap x = none ↔ x ∉ M := by
    intro x
    constructor
    · intro hx hc
      obtain ⟨j, hj⟩ := List.mem_iff_getElem?.1 hc
      rw [(hM.find x j).2 hj] at hx
      simp at hx
    · intro hx
      by_contra hc
      obtain ⟨j, hj⟩ := Option.ne_none_iff_exists'.1 hc
      exact hx (List.mem_of_getElem? ((hM.find x j).1 hj))
  refine ⟨?_, ?_, ?_, ?_⟩
  · intro m _
    rcases comparePositionMap_go_cases t m with ⟨h, -⟩ | ⟨h, -⟩ | ⟨h, -⟩ <;>
      · unfold Acc.comparePositionMap
        rw [h]; simp
  · intro m hm
    rw [← hagree]
    unfold Acc.comparePositionMap
    constructor
    · intro hr e he
      rcases comparePositionMap_go_cases t m with ⟨h, a⟩ | ⟨h, -⟩ | ⟨h, -⟩
      · exact a e ((hmem m hm e).2 he)
      · rw [h] at hr; simp at hr
      · rw [h] at hr; simp at hr
    · intro ha
      have := comparePositionMap_go_append t m [] fun e he => ha e ((hmem m hm e).1 he)
      rw [List.append_nil] at this
      exact this
  · constructor
    · rintro ⟨m, hm, hr⟩
      unfold Acc.comparePositionMap at hr
      rcases comparePositionMap_go_cases t m with ⟨h, -⟩ | ⟨-, e, he, q, hq, hne⟩ | ⟨h, -⟩
      · rw [h] at hr; simp at hr
      · exact ⟨e.1, e.2, q, (hmem m hm e).1 he, (hM.find _ _).1 hq, hne.symm⟩
      · rw [h] at hr; simp at hr
    · rintro ⟨x, i, j, hi, hj, hne⟩
      obtain ⟨m, hm, r, rfl⟩ := front (x, i) ((hmem _ (.refl _) _).2 hi)
      refine ⟨_, hm, ?_⟩
      unfold Acc.comparePositionMap
      simp only
      rw [Acc.comparePositionMap.go, (hM.find x j).2 hj]
      simp [hne.symm]
  · constructor
    · rintro ⟨m, hm, hr⟩
      unfold Acc.comparePositionMap at hr
      rcases comparePositionMap_go_cases t m with ⟨h, -⟩ | ⟨h, -⟩ | ⟨-, e, he, hq⟩
      · rw [h] at hr; simp at hr
      · rw [h] at hr; simp at hr
      · exact ⟨e.1, List.mem_of_getElem? ((hmem m hm e).1 he), (hnone _).1 hq⟩
    · rintro ⟨x, hx, hn⟩
      obtain ⟨i, hi⟩ := List.mem_iff_getElem?.1 hx
      obtain ⟨m, hm, r, rfl⟩ := front (x, i) ((hmem _ (.refl _) _).2 hi)
      refine ⟨_, hm, ?_⟩
      unfold Acc.comparePositionMap
      simp only
      rw [Acc.comparePositionMap.go, (hnone x).2 hn]

namespace Pol

/-- The histories of `Sync` are those of `Track`. -/
theorem Sync.track {F : RamForest H} {st : List (UndoBatch H × RamForest H)} {p : Pollard H} (h : Sync F st p) :
    ∃ K R, Track F st p K R := by
  induction h with
  | empty => exact ⟨_, _, .empty⟩
  | restored h1 h2 h3 => exact ⟨_, _, .restored h1 h2 h3⟩
  | @later F F' st u p p1 p2 L V D leaves leaves' hS h1 h2 h3 h4 h5 h6 h7 ih =>
    obtain ⟨K, R, ih⟩ := ih
    obtain ⟨L0, A, hI⟩ := hS.inv
    obtain ⟨L', hL', -⟩ := C16_represents F' _ (Ram.Run.modify hI.run h1 h3 h6)
    obtain ⟨K', R', hT⟩ := ih.verifies h1 h2
    exact ⟨_, _, .later hT hS h1 h2 h3 h4 h5 h6 h7 hL'⟩
  | verify _ h1 h2 h3 ih => obtain ⟨K, R, ih⟩ := ih; exact ⟨_, _, .verify ih h1 h2 h3⟩
  | prune _ h1 ih => obtain ⟨K, R, ih⟩ := ih; exact ⟨_, _, .prune ih h1⟩
  | rejected _ h1 h2 ih => obtain ⟨K, R, ih⟩ := ih; exact ⟨_, _, .rejected ih h1 h2⟩
  | reopen _ h1 h2 h3 ih => obtain ⟨K, R, ih⟩ := ih; exact ⟨_, _, .reopen ih h1 h2 h3⟩
  | copied _ h1 h2 ih => obtain ⟨K, R, ih⟩ := ih; exact ⟨_, _, .copied ih h1 h2⟩

theorem Verifies.uniq {L : List H} {p p' : Pollard H} {V : H → Prop} (h : Verifies L p V p') (hu : PosMap.Uniq p.posmap) :
    PosMap.Uniq p'.posmap := by
  induction h with
  | none => exact hu
  | next _ h1 _ ih => exact verify_uniq ih _ _ _ h1

/-- In every history the position map of the pollard is a map: no key occurs twice. -/
theorem Sync.uniq {F : RamForest H} {st : List (UndoBatch H × RamForest H)} {p : Pollard H} (h : Sync F st p) :
    PosMap.Uniq p.posmap := by
  induction h with
  | empty => exact List.nodup_nil
  | restored _ _ h3 => exact fromRoots_uniq _ _ _ h3
  | later _ _ h2 _ _ _ _ h7 ih => exact modify_uniq (h2.uniq ih) _ _ _ h7
  | verify _ _ h2 _ ih => exact verify_uniq ih _ _ _ h2
  | prune _ h1 ih => exact pruneAll_uniq ih _ h1
  | rejected _ _ h2 ih => exact modify_uniq ih _ _ _ h2
  | reopen _ _ _ _ ih => exact ih
  | copied _ _ _ ih => exact ih

end Pol
open Pol

/-- C49, between a pollard and the forest it follows, as far as it holds: the comparison always answers, and it tells
whether every position the pollard has on record is right. (It is not always right, see `C30_false`.) -/
theorem C49_pollard_partial (F : RamForest H) (st : List (UndoBatch H × RamForest H)) (p : Pollard H) (h : Sync F st p)
    (L : List H) (hL : Ram.Represents F L) :
    ∃ b, Acc.comparePositionMap p F = .ok b ∧ (b = true ↔ ∀ x i, PosMap.find p.posmap x = some i → L[i]? = some x) := by
  obtain ⟨K, R, ht⟩ := h.track
  obtain ⟨L0, A, hI⟩ := ht.inv
  obtain rfl := hL.unique hI.sync.rep
  obtain ⟨b, b1, b2⟩ := comparePositionMap_ok p F h.uniq (by
    intro x hx
    obtain ⟨j, hj⟩ := List.mem_iff_getElem?.1 (hI.sub x ((hI.dom x).1 hx))
    rw [(hL.find x j).2 hj]; rfl)
  refine ⟨b, b1, b2.trans ?_⟩
  simp only [hL.find]

/-- C49, the other way round: comparing a forest with a pollard is undefined unless the pollard remembers every leaf. -/
theorem C49_reverse (F : RamForest H) (st : List (UndoBatch H × RamForest H)) (p : Pollard H) (K R : H → Prop)
    (h : Track F st p K R) (L : List H) (hL : Ram.Represents F L) (hall : ∀ x i, PosMap.find p.posmap x = some i → L[i]? = some x)
    (x : H) (hx : x ∈ L) (hK : ¬ K x) : Acc.comparePositionMap F p = .error .ub := by
  obtain ⟨L0, A, hI⟩ := h.inv
  obtain rfl := hL.unique hI.sync.rep
  obtain ⟨n, f, h1, h2, -⟩ := hI.sync.run.inv
  have hu := h1.pos.uniq
  have key : ∀ m : PosMap H, (∀ e ∈ m, L[e.2]? = some e.1) → (∃ e ∈ m, PosMap.find p.posmap e.1 = none) →
      Acc.comparePositionMap.go p m = .error .ub := by
    intro m
    induction m with
    | nil => rintro - ⟨e, he, -⟩; simp at he
    | cons e m ih =>
      rintro hm ⟨e', he', hn⟩
      obtain ⟨y, i⟩ := e
      unfold Acc.comparePositionMap.go
      cases hy : PosMap.find p.posmap y with
      | none => rfl
      | some q =>
        have e1 := hall y q hy
        have e2 := hm (y, i) (by simp)
        obtain rfl := get_inj hI.sync.nodup e1 e2
        simp only [ne_eq, not_true_eq_false, if_false]
        refine ih (fun e he => hm e (by simp [he])) ⟨e', ?_, hn⟩
        rcases List.mem_cons.1 he' with rfl | h'
        · rw [hy] at hn; simp at hn
        · exact h'
  apply key
  · intro e he
    exact (hL.find _ _).1 ((PosMap.mem_iff_find hu e).1 he)
  · obtain ⟨i, hi⟩ := List.mem_iff_getElem?.1 hx
    refine ⟨(x, i), (PosMap.mem_iff_find hu _).2 ((hL.find _ _).2 hi), ?_⟩
    rw [← Option.not_isSome_iff_eq_none, hI.dom]
    exact hK

end Generic

/-! ## C48: equality of batches and proofs -/

/-- C48: undo batches compare equal exactly if they are equal. -/
theorem C48_batch (a b : UndoBatch Hash32) : Batch.undoEq a b = true ↔ a = b := by
  obtain ⟨a1, a2, a3⟩ := a
  obtain ⟨b1, b2, b3⟩ := b
  simp only [Batch.undoEq, Bool.and_eq_true, beq_iff_eq, UndoBatch.mk.injEq]
  constructor
  · rintro ⟨⟨⟨⟨h1, -⟩, -⟩, h2⟩, h3⟩; exact ⟨h1, h2, h3⟩
  · rintro ⟨rfl, rfl, rfl⟩; simp

/-- C48: proofs compare equal exactly if their targets, in order, and their hashes are equal. If both hold the sorted copy
of their targets, as after construction, `Prove`, and decoding into a fresh object, they are then equal. -/
theorem C48_proof (a b : BatchProof Hash32) :
    (Batch.proofEq a b = true ↔ a.targets = b.targets ∧ a.hashes = b.hashes) ∧
    (a = BatchProof.mk' a.targets a.hashes → b = BatchProof.mk' b.targets b.hashes → (Batch.proofEq a b = true ↔ a = b)) := by
  have h1 : Batch.proofEq a b = true ↔ a.targets = b.targets ∧ a.hashes = b.hashes := by
    simp [Batch.proofEq]
  refine ⟨h1, fun ha hb => h1.trans ⟨?_, fun h => by rw [h]; exact ⟨rfl, rfl⟩⟩⟩
  rintro ⟨e1, e2⟩
  rw [ha, hb, e1, e2]

section Examples
variable [HashOps Hash32]
open Pol

/-- The sorted copy is not compared: a proof decoded into a used object can compare equal to the same proof decoded into a
fresh one, and yet `Verify` accepts one of them and rejects the other. -/
theorem C48_stale_witness : ∃ bytes a b,
    Batch.unserialize false (BatchProof.mk' [7] []) bytes = .ok (true, a) ∧ Batch.unserialize false {} bytes = .ok (true, b) ∧
    Batch.proofEq a b = true ∧ verify (mk 0) a [] = .ok (false, mk 0) ∧ verify (mk 0) b [] = .ok (true, mk 0) :=
  ⟨[0, 0, 0, 0, 0, 0, 0, 0], _, _, rfl, rfl, by decide, rfl, by with_unfolding_all rfl⟩

end Examples

section Examples
open Pol
attribute [local instance] toyOps

/-- C49 is false: comparing with a forest that lacks a leaf dereferences `end()`. -/
theorem C49_false : (do
    let (_, _, s) ← Ram.modify (Ram.mk 0) toyLeaves []
    let (_, _, t) ← Ram.modify s [] [6]
    Acc.comparePositionMap s t) = .error .ub := by rfl

/-- The answer may depend on the order of iteration: with a leaf missing and another one elsewhere, one order meets the
missing leaf first and the reverse one the other leaf. -/
example : (do
    let (_, _, s) ← Ram.modify (Ram.mk 0) toyLeaves []
    let (_, _, t) ← Ram.modify s [] [0]
    return [Acc.comparePositionMap s t, Acc.comparePositionMap { s with posmap := s.posmap.reverse } t]) =
      .ok [.ok false, .error .ub] := by decide +kernel

/-- The comparison of a pollard with the forest it follows, the reverse comparison, and a pollard with a wrong record. -/
example : toyAfter toyBlocks (fun F p => Acc.comparePositionMap p F) = .ok true ∧
    toyAfter toyBlocks (fun F p => Acc.comparePositionMap F p) = .error .ub ∧
    toyAfter [{ adds := [(11, false, false), (12, false, false), (13, false, true), (14, false, false), (15, false, false)], dels := [] },
        { adds := [], dels := [14] }, { adds := [], dels := [11] }] (fun F p => Acc.comparePositionMap p F) = .ok false := by
  decide +kernel

/-- Forests with the same leaves in different order are not equal. -/
example : (do
    let (_, _, s) ← Ram.modify (Ram.mk 0) toyLeaves []
    let (_, _, t) ← Ram.modify s [(11, false)] [0]
    let (_, _, t') ← Ram.modify s [(17, false)] [6]
    return (← Ram.equal s t, ← Ram.equal s t')) = .ok (false, true) := by decide +kernel

end Examples

end Utreexo
