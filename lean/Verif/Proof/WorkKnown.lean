import Verif.Proof.WorkExact

/-!
# Verifications without parent hashes

If the hashes of all nodes above the targets and of their siblings are known, the nodes are marked as valid row by row.
-/

set_option linter.unusedSectionVars false

namespace Utreexo
open Spec Equiv

variable {H : Type} [DecidableEq H] [HashOps H]

namespace Pol

/-- The node with this number is marked as valid. -/
def ValidAt (arena : List VNode) (id : ℕ) : Prop := ∃ v, arena[id]? = some v ∧ v.valid = true

theorem markValid_keep {arena : List VNode} {p : Option ℕ} {id : ℕ} (h : ValidAt arena id) : ValidAt (markValid arena p) id := by
  obtain ⟨v, h1, h2⟩ := h
  unfold markValid
  cases p with
  | none => exact ⟨v, h1, h2⟩
  | some i =>
    dsimp only
    split
    · exact ⟨v, h1, h2⟩
    · rename_i w hw
      by_cases hi : i = id
      · subst hi
        refine ⟨{ w with valid := true }, ?_, rfl⟩
        rw [List.getElem?_set_self (List.getElem?_eq_some_iff.1 h1).1]
      · exact ⟨v, by rw [List.getElem?_set_ne hi]; exact h1, h2⟩

theorem markValid_self {arena : List VNode} {id : ℕ} (h : id < arena.length) : ValidAt (markValid arena (some id)) id := by
  unfold markValid
  dsimp only
  rw [List.getElem?_eq_getElem h]
  dsimp only
  exact ⟨{ arena[id] with valid := true }, by rw [List.getElem?_set_self h], rfl⟩

theorem After.ite2 {α : Type} {P : α → Prop} {c : Prop} [Decidable c] {x y : Res α} (h1 : c → After x P) (h2 : ¬ c → After y P) :
    After (if c then x else y) P := by
  split
  · exact h1 (by assumption)
  · exact h2 (by assumption)

/-- Marks stay, and a node whose hashes are known marks its parent. -/
theorem vptNode_marks (n : ℕ) (t : VPT H) (next : List ℕ) (id : ℕ) :
    After (vptNode n t next id) fun o => ∀ a, o = .cont a → (∀ i, ValidAt t.arena i → ValidAt a.1.arena i) ∧
      ∀ v j, t.arena[id]? = some v → v.target = true → (v.pos < n → v.cached = true ∧ v.sibCached = true) →
        (¬ v.pos < n → v.valid = true) → v.parent = some j → j < t.arena.length → ValidAt a.1.arena j := by
  unfold vptNode
  refine After.bind (Q := fun v => t.arena[id]? = some v) ?_ (fun v hv => ?_)
  · intro v hv
    unfold vecGet at hv
    split at hv
    · cases hv; assumption
    · cases hv
  refine Pol.After.ite2 (fun h => After.pure ?_) fun h => ?_
  · rintro a h'
    cases h'
    refine ⟨fun i hi => hi, fun w j hw htar => ?_⟩
    rw [hv] at hw
    cases hw
    rw [htar] at h
    cases h
  dsimp only
  -- what is needed of the arena
  have good : ∀ arena : List VNode, (∀ i, ValidAt t.arena i → ValidAt arena i) →
      (∀ j, (v.pos < n → v.cached = true ∧ v.sibCached = true) → (¬ v.pos < n → v.valid = true) → v.parent = some j →
        j < t.arena.length → ValidAt arena j) →
      ∀ (x : VPT H) (nx : List ℕ), x.arena = arena → ∀ a, (Step.cont (x, nx) : Step (VPT H × List ℕ)) = .cont a →
        (∀ i, ValidAt t.arena i → ValidAt a.1.arena i) ∧
        ∀ w j, t.arena[id]? = some w → w.target = true → (w.pos < n → w.cached = true ∧ w.sibCached = true) →
          (¬ w.pos < n → w.valid = true) → w.parent = some j → j < t.arena.length → ValidAt a.1.arena j := by
    intro arena h1 h2 x nx hx a ha
    cases ha
    subst hx
    refine ⟨h1, fun w j hw _ h3 h4 h5 h6 => ?_⟩
    rw [hv] at hw
    cases hw
    exact h2 j h3 h4 h5 h6
  have fail : ∀ (x : VPT H × List ℕ) (a : VPT H × List ℕ), (Step.fail x : Step (VPT H × List ℕ)) = .cont a →
        (∀ i, ValidAt t.arena i → ValidAt a.1.arena i) ∧
        ∀ w j, t.arena[id]? = some w → w.target = true → (w.pos < n → w.cached = true ∧ w.sibCached = true) →
          (¬ w.pos < n → w.valid = true) → w.parent = some j → j < t.arena.length → ValidAt a.1.arena j := by
    intro x a ha
    cases ha
  have hlen : ∀ p, (markValid t.arena p).length = t.arena.length := by
    intro p
    have := congrArg List.length (markValid_pos t.arena p)
    simpa using this
  -- after the first step
  have h0 : (∀ i, ValidAt t.arena i →
      ValidAt (if v.valid = true then { t with arena := markValid t.arena v.parent } else t : VPT H).arena i) ∧
      (∀ j, v.valid = true → v.parent = some j → j < t.arena.length →
        ValidAt (if v.valid = true then { t with arena := markValid t.arena v.parent } else t : VPT H).arena j) ∧
      (if v.valid = true then { t with arena := markValid t.arena v.parent } else t : VPT H).arena.length = t.arena.length := by
    by_cases hval : v.valid = true
    · rw [if_pos hval]
      refine ⟨fun i hi => markValid_keep hi, fun j _ hj hlt => ?_, hlen _⟩
      dsimp only
      rw [hj]
      exact markValid_self hlt
    · rw [if_neg hval]
      exact ⟨fun i hi => hi, fun j hc => absurd hc hval, rfl⟩
  generalize (if v.valid = true then { t with arena := markValid t.arena v.parent } else t : VPT H) = t1 at h0 ⊢
  obtain ⟨a1, a2, a3⟩ := h0
  have keep : ∀ b : Bool, ∀ i, ValidAt t.arena i → ValidAt (if b = true then markValid t1.arena v.parent else t1.arena) i := by
    intro b i hi
    split
    · exact markValid_keep (a1 i hi)
    · exact a1 i hi
  have keep' : ∀ b : Bool, ∀ j, v.valid = true → v.parent = some j → j < t.arena.length →
      ValidAt (if b = true then markValid t1.arena v.parent else t1.arena) j := by
    intro b j hv' hj hlt
    split
    · exact markValid_keep (a2 j hv' hj hlt)
    · exact a2 j hv' hj hlt
  refine Pol.After.ite2 (fun hp => ?_) fun hp => ?_
  · cases t1.targets with
    | nil => exact After.pure (fail _)
    | cons th ths =>
      have fin : ∀ (x : VPT H) (nx : List ℕ),
          x.arena = (if (v.cached && v.sibCached) = true then markValid t1.arena v.parent else t1.arena) →
          ∀ a, (Step.cont (x, nx) : Step (VPT H × List ℕ)) = .cont a →
        (∀ i, ValidAt t.arena i → ValidAt a.1.arena i) ∧
        ∀ w j, t.arena[id]? = some w → w.target = true → (w.pos < n → w.cached = true ∧ w.sibCached = true) →
          (¬ w.pos < n → w.valid = true) → w.parent = some j → j < t.arena.length → ValidAt a.1.arena j := by
        intro x nx hx
        refine good _ (keep _) ?_ x nx hx
        intro j hc _ hj hlt
        obtain ⟨c1, c2⟩ := hc hp
        rw [c1, c2, hj]
        exact markValid_self (by rw [a3]; exact hlt)
      refine After.seq fun x => After.ite (After.pure (fail _)) ?_
      split
      · exact After.seq fun h => After.seq fun y => After.seq fun h' => After.pure (fin _ _ rfl)
      · exact After.seq fun h => After.seq fun y => After.seq fun h' => After.pure (fin _ _ rfl)
  · have fin : ∀ (b : Bool) (x : VPT H) (nx : List ℕ), x.arena = (if b = true then markValid t1.arena v.parent else t1.arena) →
        ∀ a, (Step.cont (x, nx) : Step (VPT H × List ℕ)) = .cont a →
        (∀ i, ValidAt t.arena i → ValidAt a.1.arena i) ∧
        ∀ w j, t.arena[id]? = some w → w.target = true → (w.pos < n → w.cached = true ∧ w.sibCached = true) →
          (¬ w.pos < n → w.valid = true) → w.parent = some j → j < t.arena.length → ValidAt a.1.arena j := by
      intro b x nx hx
      exact good _ (keep b) (fun j _ hc hj hlt => keep' b j (hc hp) hj hlt) x nx hx
    refine After.ite ?_ (After.ite (After.pure (fin false _ _ rfl)) ?_)
    · refine After.seq fun o => ?_
      cases o with
      | none => exact After.pure (fail _)
      | some ch => exact After.seq fun x => After.ite (After.pure (fail _)) (After.pure (fin v.sibCached _ _ rfl))
    · refine After.seq fun o => ?_
      cases o with
      | none => exact After.seq fun _ => After.seq fun _ => After.pure (fin false _ _ rfl)
      | some ch =>
        refine After.seq fun x => After.seq fun h => ?_
        exact After.seq fun _ => After.pure (fin false _ _ rfl)

/-- No hash for nodes that are no targets, for leaves and for nodes that are known and marked. -/
theorem vptNode_free (n : ℕ) (t : VPT H) (next : List ℕ) (id : ℕ) (v : VNode) (hv : t.arena[id]? = some v)
    (h : v.target = true → v.pos < n ∨ (v.valid = true ∧ v.cached = true)) :
    Follows (Costs fun k _ => k = 0) (vptNodeC n t next id) (vptNode n t next id) := by
  by_cases ht : v.target = true
  · rcases h ht with hp | ⟨h1, h2⟩
    · exact (vptNode_work n t next id).mono fun a b hab => ⟨hab.1, hab.2.2 v hv hp⟩
    · by_cases hp : v.pos < n
      · exact (vptNode_work n t next id).mono fun a b hab => ⟨hab.1, hab.2.2 v hv hp⟩
      · unfold vptNodeC vptNode
        rw [vecGet_ok hv, ok_bind, ok_bind, ht, h1, h2]
        simp only [Bool.not_true, Bool.false_eq_true, if_false, if_true, Bool.and_self, Bool.false_and]
        rw [if_neg hp, if_neg hp]
        exact .ok ⟨rfl, rfl⟩
  · rw [Bool.not_eq_true] at ht
    unfold vptNodeC vptNode
    rw [vecGet_ok hv, ok_bind, ok_bind, ht]
    simp only [Bool.not_false, if_true]
    exact .ok ⟨rfl, rfl⟩

/-- A node without its mark. -/
def bare (v : VNode) : VNode := { v with valid := false }

/-- A row of nodes that are known: no hash, and the parents are marked. -/
theorem vptRow_known (n : ℕ) : ∀ (ids : List ℕ) (t : VPT H) (next : List ℕ),
    (∀ id ∈ ids, ∃ w, (t.arena.map bare)[id]? = some w ∧ (w.target = true → w.cached = true ∧ (w.pos < n → w.sibCached = true) ∧
      (¬ w.pos < n → ValidAt t.arena id) ∧ ∀ j, w.parent = some j → j < t.arena.length)) →
    Follows (Costs fun k o => k = 0 ∧ ∀ a, o = .cont a → (∀ i, ValidAt t.arena i → ValidAt a.1.arena i) ∧
        ∀ id ∈ ids, ∀ w j, (t.arena.map bare)[id]? = some w → w.target = true → w.parent = some j → ValidAt a.1.arena j)
      (vptRowC n ids t next) (vptRow n ids t next) := by
  intro ids
  induction ids with
  | nil =>
    intro t next _
    refine .ok ⟨rfl, rfl, ?_⟩
    intro a ha
    cases ha
    exact ⟨fun i hi => hi, fun id hid => by cases hid⟩
  | cons id ids ih =>
    intro t next hl
    rw [vptRowC, vptRow]
    obtain ⟨w, hw, hw'⟩ := hl id (by simp)
    rw [List.getElem?_map, Option.map_eq_some_iff] at hw
    obtain ⟨v, hv, rfl⟩ := hw
    have val : v.target = true → ¬ v.pos < n → v.valid = true := by
      intro ht hp
      obtain ⟨v', e1, e2⟩ := (hw' ht).2.2.1 hp
      rw [hv] at e1
      cases e1
      exact e2
    have h1 := vptNode_free n t next id v hv (by
      intro ht
      by_cases hp : v.pos < n
      · exact .inl hp
      · exact .inr ⟨val ht hp, (hw' ht).1⟩)
    have h2 := vptNode_marks n t next id
    have h3 := vptNode_map bare (fun _ => rfl) n t next id
    revert h1 h2 h3
    generalize vptNodeC n t next id = x
    generalize vptNode n t next id = y
    intro h1 h2 h3
    cases h1 with
    | error e => exact .error e
    | @ok a b hab =>
      obtain ⟨o, c⟩ := a
      obtain ⟨rfl, hc⟩ := hab
      simp only at hc
      subst hc
      rw [ok_bind, ok_bind]
      cases o with
      | fail x => exact .ok ⟨rfl, rfl, fun a ha => by cases ha⟩
      | cont x =>
        dsimp only
        obtain ⟨m1, m2⟩ := h2 _ rfl x rfl
        have m3 := h3 _ rfl x (.inl rfl)
        have hlen : x.1.arena.length = t.arena.length := by simpa using congrArg List.length m3
        have := ih x.1 x.2 (by
          intro id' hid'
          obtain ⟨u, hu, hu'⟩ := hl id' (List.mem_cons_of_mem _ hid')
          refine ⟨u, by rw [m3]; exact hu, fun ht => ?_⟩
          obtain ⟨k1, k2, k3, k4⟩ := hu' ht
          exact ⟨k1, k2, fun hp => m1 _ (k3 hp), fun j hj => by rw [hlen]; exact k4 j hj⟩)
        revert this
        generalize vptRowC n ids x.1 x.2 = a
        generalize vptRow n ids x.1 x.2 = b
        intro h
        cases h with
        | error e => exact .error e
        | ok h =>
          refine .ok ⟨h.1, by have := h.2.1; simp only at this ⊢; omega, ?_⟩
          intro a ha
          obtain ⟨r1, r2⟩ := h.2.2 a ha
          refine ⟨fun i hi => r1 i (m1 i hi), ?_⟩
          intro id' hid' w j hw1 hw2 hw3
          rcases List.mem_cons.1 hid' with rfl | hm
          · rw [List.getElem?_map, hv] at hw1
            cases hw1
            obtain ⟨k1, k2, k3, k4⟩ := hw' hw2
            exact r1 j (m2 v j hv hw2 (fun hp => ⟨k1, k2 hp⟩) (fun hp => val hw2 hp) hw3 (k4 j hw3))
          · exact r2 id' hm w j (by rw [m3]; exact hw1) hw2 hw3

section
variable {K : Ctx H} {hs0 : List H} {A1 : Addr} {cs : List (ℕ × ℕ)} {heap1 : List (INode H)}

/-- The hypotheses of `vptRow_known` for a row of the proof tree. -/
theorem row_known (B : Base K A1 cs heap1) {t : VPT H} {ν : ℕ → ℕ → Bool} (W : VW K A1 cs heap1 t ν)
    (hk : ∀ r x, x ∈ Vn K.n K.D r → (K.A0 r x).isSome) {k : ℕ} {l : List ℕ} (hl : ∀ x ∈ l, x ∈ Vn K.n K.D k)
    (hval : k ≠ 0 → ∀ x ∈ Cn K.n K.D k, ValidAt t.arena (cs.idxOf (k, x))) :
    ∀ id ∈ l.map (fun y => cs.idxOf (k, y)), ∃ w, (t.arena.map bare)[id]? = some w ∧
      (w.target = true → w.cached = true ∧ (w.pos < K.n → w.sibCached = true) ∧
      (¬ w.pos < K.n → ValidAt t.arena id) ∧ ∀ j, w.parent = some j → j < t.arena.length) := by
  intro id hid
  obtain ⟨x, hx, rfl⟩ := List.mem_map.1 hid
  have hV := hl x hx
  have hm : (k, x) ∈ cs := (B.mem _ _).2 hV
  refine ⟨_, by rw [List.getElem?_map, W.node hm]; rfl, fun ht => ⟨hk _ _ hV, fun _ => ?_, fun hp => ?_, fun j hj => ?_⟩⟩
  · show (rtOf K.n k x || (K.A0 k (x ^^^ 1)).isSome) = true
    cases hr : rtOf K.n k x with
    | true => rfl
    | false => exact hk _ _ (Vn_sib B.ok.sane hV hr)
  · have hp' : ¬ posOf (St.numRows K.n) k x < K.n := hp
    rw [pos_lt_iff B.ok.sane.n62 (Vn_in B.ok.sane hV)] at hp'
    have ht' : tauF K.n K.D k x = true := ht
    unfold tauF at ht'
    exact hval hp' x (by simpa using ht')
  · have hj' : (if rtOf K.n k x = true then none else some (cs.idxOf (k + 1, x / 2))) = some j := hj
    split at hj'
    · cases hj'
    · rename_i hr
      cases hj'
      rw [W.arena, List.length_map]
      exact List.idxOf_lt_length_of_mem (B.parent hm (by simpa using hr))

/-- The nodes of the next row are marked. -/
theorem row_marked (B : Base K A1 cs heap1) {t : VPT H} {ν : ℕ → ℕ → Bool} (W : VW K A1 cs heap1 t ν) {k : ℕ} {l : List ℕ}
    (hl : ∀ x ∈ Cn K.n K.D k, x ∈ l) {arena : List VNode}
    (h : ∀ id ∈ l.map (fun y => cs.idxOf (k, y)), ∀ w j, (t.arena.map bare)[id]? = some w → w.target = true → w.parent = some j →
      ValidAt arena j) : ∀ x ∈ Cn K.n K.D (k + 1), ValidAt arena (cs.idxOf (k + 1, x)) := by
  intro y hy
  obtain ⟨hlt, x, hx, rfl⟩ := (mem_Cn_succ B.ok.sane).1 hy
  have hm : (k, x) ∈ cs := (B.mem _ _).2 (Cn_sub B.ok.sane hx)
  refine h (cs.idxOf (k, x)) (List.mem_map.2 ⟨x, hl x hx, rfl⟩) _ _ (by rw [List.getElem?_map, W.node hm]; rfl) ?_ ?_
  · show tauF K.n K.D k x = true
    unfold tauF; simpa using hx
  · show (if rtOf K.n k x = true then none else some (cs.idxOf (k + 1, x / 2))) = _
    rw [rtOf_false hlt]
    rfl

theorem vptRows_known (B : Base K A1 cs heap1) (hon : K.hon → hs0 = K.D.map (K.c 0))
    (hk : ∀ r x, x ∈ Vn K.n K.D r → (K.A0 r x).isSome) :
    ∀ (fuel k : ℕ) (t : VPT H) (ν : ℕ → ℕ → Bool), VI K hs0 A1 cs heap1 t ν (k + 1) [] →
    (∀ x ∈ Cn K.n K.D (k + 1), ValidAt t.arena (cs.idxOf (k + 1, x))) →
    Follows (Costs fun c _ => c = 0)
      (vptRowsC K.n fuel t ((Cn K.n K.D (k + 1)).map fun y => cs.idxOf (k + 1, y)))
      (vptRows K.n fuel t ((Cn K.n K.D (k + 1)).map fun y => cs.idxOf (k + 1, y))) := by
  intro fuel
  induction fuel with
  | zero => intro k t ν _ _; exact .error _
  | succ fuel ih =>
    intro k t ν V hval
    rw [vptRowsC, vptRows]
    refine Follows.ite (fun h => .ok ⟨rfl, rfl⟩) fun _ => ?_
    have h := vptRow_ok B hon (k := k + 1) (Cn K.n K.D (k + 1)) t ν [] [] V (Cn_ok B.ok.sane _).1 (fun y hy => Cn_sub B.ok.sane hy)
      (by simp) (by rw [List.nil_append]; apply List.filter_eq_self.2; simp) ⟨by simp, by simp⟩ (by simp)
    rw [List.map_nil] at h
    have hw := vptRow_known K.n _ t [] (row_known B V.toVW hk (l := Cn K.n K.D (k + 1)) (fun x hx => Cn_sub B.ok.sane hx) fun _ => hval)
    rcases h with ⟨t', ν', e, V'⟩ | ⟨t', ν', nx, e, h1, W⟩
    · rw [e] at hw ⊢
      obtain ⟨⟨o, c⟩, e', rfl, hc1, hc2⟩ := hw.left rfl
      rw [e', ok_bind, ok_bind]
      dsimp only
      have := ih (k + 1) t' ν' V'.up (row_marked B V.toVW (fun x hx => hx) (hc2 _ rfl).2)
      revert this
      generalize vptRowsC K.n fuel t' _ = a
      generalize vptRows K.n fuel t' _ = b
      intro h
      cases h with
      | error e => exact .error e
      | ok h =>
        refine .ok ⟨h.1, ?_⟩
        have h2 := h.2
        simp only at hc1 h2 ⊢
        omega
    · rw [e] at hw ⊢
      obtain ⟨⟨o, c⟩, e', rfl, hc1, -⟩ := hw.left rfl
      rw [e', ok_bind, ok_bind]
      exact .ok ⟨rfl, hc1⟩

theorem verifyProofTree_known (B : Base K A1 cs heap1) (hon : K.hon → hs0 = K.D.map (K.c 0)) {t : VPT H}
    (V : VI K hs0 A1 cs heap1 t (fun _ _ => false) 0 []) (hk : ∀ r x, x ∈ Vn K.n K.D r → (K.A0 r x).isSome) :
    Follows (Costs fun c _ => c = 0)
      (verifyProofTreeC K.n t ((Vn K.n K.D 0).map fun y => cs.idxOf (0, y)))
      (verifyProofTree K.n t ((Vn K.n K.D 0).map fun y => cs.idxOf (0, y))) := by
  unfold verifyProofTreeC verifyProofTree
  refine Follows.bind (R := Costs fun c _ => c = 0) ?_ ?_
  · rw [vptRowsC, vptRows]
    refine Follows.ite (fun h => .ok ⟨rfl, rfl⟩) fun _ => ?_
    have h := vptRow_ok B hon (k := 0) (Vn K.n K.D 0) t _ [] [] V (Vn_sorted B.ok.sane _) (fun y hy => hy)
      (by simp) (by rw [List.nil_append]; exact Vn_comp B.ok.sane 0) ⟨by simp, by simp⟩ (by simp)
    rw [List.map_nil] at h
    have hw := vptRow_known K.n _ t [] (row_known B V.toVW hk (l := Vn K.n K.D 0) (fun x hx => hx) fun h => absurd rfl h)
    rcases h with ⟨t', ν', e, V'⟩ | ⟨t', ν', nx, e, h1, W⟩
    · rw [e] at hw ⊢
      obtain ⟨⟨o, c⟩, e', rfl, hc1, hc2⟩ := hw.left rfl
      rw [e', ok_bind, ok_bind]
      dsimp only
      have := vptRows_known B hon hk 66 0 t' ν' V'.up (row_marked B V.toVW (fun x hx => Cn_sub B.ok.sane hx) (hc2 _ rfl).2)
      revert this
      generalize vptRowsC K.n 66 t' _ = a
      generalize vptRows K.n 66 t' _ = b
      intro h
      cases h with
      | error e => exact .error e
      | ok h =>
        refine .ok ⟨h.1, ?_⟩
        have h2 := h.2
        simp only at hc1 h2 ⊢
        omega
    · rw [e] at hw ⊢
      obtain ⟨⟨o, c⟩, e', rfl, hc1, -⟩ := hw.left rfl
      rw [e', ok_bind, ok_bind]
      exact .ok ⟨rfl, hc1⟩
  · rintro ⟨⟨b, t'⟩, c⟩ x ⟨rfl, hc⟩
    exact .ok ⟨rfl, hc⟩

end

theorem verify_known {s : Pollard H} {n : ℕ} {f : ℕ → H} {A : Addr} (h : Inv s n f A) (hn62 : n ≤ 2 ^ 62)
    (proof : BatchProof H) (hs : List H) (hk : Sane n proof.sorted → ∀ r x, x ∈ Vn n proof.sorted r → (A r x).isSome) :
    Follows (Costs fun c _ => c = 0) (verifyC s proof hs) (verify s proof hs) := by
  unfold verify verifyC
  refine Follows.ite (fun _ => .ok ⟨rfl, rfl⟩) fun hl' => ?_
  obtain ⟨b, e, hb⟩ := checkSanity_ok (H := H) hn62 proof
  rw [h.ph.num, e, ok_bind, ok_bind]
  cases b with
  | false => exact .ok ⟨rfl, rfl⟩
  | true =>
    have hS' := (hb.1 rfl).1
    simp only [Bool.not_true, Bool.false_eq_true, if_false]
    refine Follows.ite (fun _ => .ok ⟨rfl, rfl⟩) fun ht => ?_
    have hK : (ctxOf s n f A proof hs).Ok := ⟨hS', h.ph.shape, h.ph.hashed, h.out, fun r x => mt_succ f r x⟩
    rcases createProofTree_ok (K := ctxOf s n f A proof hs) (s := s) (proof := proof) hK h.ph.num rfl h.ph.roots rfl rfl (fun hh => hh.2) with
      ⟨e1, hz⟩ | ⟨c, tree, e1, ⟨cs, A1, I, P, etree⟩, hc⟩ | ⟨c, tree, e1, nh, k, dn, cs, A1, I⟩
    · rw [e1]
      exact .error _
    · rw [e1]
      simp only [ok_bind, if_true]
      have B := base_of hK I P
      have V := vi_of hK I hs
      have e2 : tree = (Vn n proof.sorted 0).map fun y => cs.idxOf (0, y) := etree
      rw [e2]
      refine Follows.bind (R := Costs fun c _ => c = 0) ?_ ?_
      · exact verifyProofTree_known (K := ctxOf s n f A proof hs) B (fun hh => by
          have := hh.1
          rw [this]
          rfl) V (hk hS')
      · rintro ⟨⟨ok, t⟩, k⟩ b ⟨rfl, hk⟩
        refine Follows.ite (fun _ => ?_) fun ho => ?_
        · refine Follows.seq fun heap => ?_
          exact .ok ⟨rfl, hk⟩
        · refine Follows.seq fun m => ?_
          exact .ok ⟨rfl, hk⟩
    · rw [e1]
      simp only [ok_bind, pure_bind, Bool.false_eq_true, if_false, Bool.not_false, if_true]
      refine Follows.seq fun heap => ?_
      exact .ok ⟨rfl, rfl⟩

end Pol
end Utreexo
