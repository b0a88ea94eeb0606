import Verif.Proof.PolShape

/-! # Exchanging subtrees of a pollard, pruning and merging -/

set_option linter.unusedSectionVars false

namespace Utreexo
open Spec Equiv

variable {H : Type} [DecidableEq H] [HashOps H]

namespace Pol

/-- Hash of the object at a pointer. -/
def hz (heap : List (INode H)) (p : ℕ) : Option H := (heap[p]?).map INode.hash

theorem deref_ok {heap : List (INode H)} {p : ℕ} {x : INode H} (h : heap[p]? = some x) :
    deref heap (some p) = .ok x := vecGet_ok h

theorem store_ok {heap : List (INode H)} {p : ℕ} (h : p < heap.length) (x : INode H) :
    store heap (some p) x = .ok (heap.set p x) := Ram.vecSet_ok h

theorem hz_set {heap : List (INode H)} {p : ℕ} (h : p < heap.length) (x : INode H) (q : ℕ) :
    hz (heap.set p x) q = if q = p then some x.hash else hz heap q := by
  unfold hz
  rw [List.getElem?_set]
  by_cases hq : p = q
  · subst hq; simp [h]
  · rw [if_neg hq, if_neg (Ne.symm hq)]

theorem nz_set {heap : List (INode H)} {p : ℕ} (h : p < heap.length) (x : INode H) (q b : ℕ) :
    nz (heap.set p x) (some q) b = if q = p then INode.niece x b else nz heap (some q) b := by
  by_cases hq : q = p
  · subst hq; rw [nz_set_self h, if_pos rfl]
  · rw [nz_set_ne hq, if_neg hq]

/-- Object with another hash. -/
def wHash (x : INode H) (h : H) : INode H := { x with hash := h }

/-- Object with the nieces of another one. -/
def wKids (x y : INode H) : INode H := { x with n0 := y.n0, n1 := y.n1 }

theorem niece_pair (x y : INode H) (b : ℕ) : INode.niece (wKids x y) b = INode.niece y b := rfl

theorem niece_hash (x : INode H) (h : H) (b : ℕ) : INode.niece (wHash x h) b = INode.niece x b := rfl

theorem swapContents_ok {heap : List (INode H)} {pi hi pj hj : ℕ} (h1 : pi < heap.length) (h2 : hi < heap.length)
    (h3 : pj < heap.length) (h4 : hj < heap.length) (h5 : pi ≠ pj) (h6 : hi ≠ hj) :
    ∃ heap', swapContents heap (some pi) (some hi) (some pj) (some hj) = .ok heap' ∧ heap'.length = heap.length ∧
      (∀ q b, nz heap' (some q) b = if q = hi then nz heap (some hj) b else if q = hj then nz heap (some hi) b
        else nz heap (some q) b) ∧
      ∀ q, hz heap' q = if q = pi then hz heap pj else if q = pj then hz heap pi else hz heap q := by
  have gi : heap[pi]? = some heap[pi] := List.getElem?_eq_getElem h1
  have gj : heap[pj]? = some heap[pj] := List.getElem?_eq_getElem h3
  set A1 := heap.set pj (wHash heap[pj] heap[pi].hash) with hA1
  have e1 : A1[pi]? = some heap[pi] := by rw [hA1, List.getElem?_set_ne (Ne.symm h5), gi]
  set A2 := A1.set pi (wHash heap[pi] heap[pj].hash) with hA2
  have l2 : A2.length = heap.length := by simp [hA2, hA1]
  have gs : A2[hj]? = some (A2[hj]'(by omega)) := List.getElem?_eq_getElem _
  have gt : A2[hi]? = some (A2[hi]'(by omega)) := List.getElem?_eq_getElem _
  set st := A2[hj]'(by omega) with hst
  set sf := A2[hi]'(by omega) with hsf
  set A3 := A2.set hj (wKids st sf) with hA3
  have e3 : A3[hi]? = some sf := by rw [hA3, List.getElem?_set_ne (Ne.symm h6), gt]
  have l3 : A3.length = heap.length := by simp [hA3, l2]
  refine ⟨A3.set hi (wKids sf st), ?_, by simp [l3], ?_, ?_⟩
  · unfold swapContents
    have w1 : store heap (some pj) { heap[pj] with hash := heap[pi].hash } = .ok A1 := store_ok h3 _
    have w2 : store A1 (some pi) { heap[pi] with hash := heap[pj].hash } = .ok A2 :=
      store_ok (by simpa [hA1] using h1) _
    have w3 : store A2 (some hj) { st with n0 := sf.n0, n1 := sf.n1 } = .ok A3 := store_ok (by omega) _
    have w4 : store A3 (some hi) { sf with n0 := st.n0, n1 := st.n1 } = .ok (A3.set hi (wKids sf st)) :=
      store_ok (by omega) _
    rw [deref_ok gj, ok_bind, deref_ok gi, ok_bind, w1, ok_bind, deref_ok e1, ok_bind,
      w2, ok_bind, deref_ok gs, ok_bind, deref_ok gt, ok_bind, w3, ok_bind, deref_ok e3, ok_bind, w4]
  · have n2 : ∀ q b, nz A2 (some q) b = nz heap (some q) b := by
      intro q b
      rw [hA2, nz_set (by simp [hA1]; omega), niece_hash, hA1, nz_set h3, niece_hash]
      by_cases c1 : q = pi
      · subst c1; rw [if_pos rfl, nz_some gi]
      · rw [if_neg c1]
        by_cases c2 : q = pj
        · subst c2; rw [if_pos rfl, nz_some gj]
        · rw [if_neg c2]
    intro q b
    rw [nz_set (by omega), niece_pair, hA3, nz_set (by omega), niece_pair, ← nz_some gs, ← nz_some gt, n2, n2, n2]
  · intro q
    rw [hz_set (by omega), hA3, hz_set (by omega)]
    have k2 : ∀ q, hz A2 q = if q = pi then hz heap pj else if q = pj then hz heap pi else hz heap q := by
      intro q
      rw [hA2, hz_set (by simp [hA1]; omega), hA1, hz_set h3]
      have y1 : hz heap pi = some heap[pi].hash := by unfold hz; rw [gi]; rfl
      have y2 : hz heap pj = some heap[pj].hash := by unfold hz; rw [gj]; rfl
      rw [y1, y2]; rfl
    have d1 : (wKids sf st).hash = sf.hash := rfl
    have d2 : (wKids st sf).hash = st.hash := rfl
    rw [d1, d2]
    have t1 : hz A2 hi = some sf.hash := by unfold hz; rw [gt]; rfl
    have t2 : hz A2 hj = some st.hash := by unfold hz; rw [gs]; rfl
    rw [← k2]
    by_cases c1 : q = hi
    · subst c1; rw [if_pos rfl, t1]
    · rw [if_neg c1]
      by_cases c2 : q = hj
      · subst c2; rw [if_pos rfl, t2]
      · rw [if_neg c2]

/-- The address map after exchanging subtrees of row `r`. -/
def permAddr (r : ℕ) (P : Perm ℕ) (A : Addr) : Addr := fun s x => if s < r then A s (up (r - s) P x) else A s x

theorem up_sb {k : ℕ} (hk : 0 < k) (P : Perm ℕ) (x : ℕ) : up k P (x ^^^ 1) = up k P x ^^^ 1 := by
  obtain ⟨k, rfl⟩ : ∃ j, k = j + 1 := ⟨k - 1, by omega⟩
  rcases Nat.mod_two_eq_zero_or_one x with h | h
  · obtain ⟨y, rfl⟩ : ∃ y, x = 2 * y := ⟨x / 2, by omega⟩
    have h0 := up_succ_two k P y 0 (by omega)
    rw [xor_one_even, up_succ_two k P y 1 (by omega)]
    rw [add_zero, add_zero] at h0
    rw [h0, xor_one_even]
  · obtain ⟨y, rfl⟩ : ∃ y, x = 2 * y + 1 := ⟨x / 2, by omega⟩
    have h0 := up_succ_two k P y 0 (by omega)
    rw [add_zero, add_zero] at h0
    rw [xor_one_odd, up_succ_two k P y 1 (by omega), h0, xor_one_odd]

/-- Exchanging two subtrees without roots below their tops. -/
theorem Shape.swap {heap heap' : List (INode H)} {rt : ℕ → ℕ → Bool} {A : Addr} (s : Shape heap rt A)
    {r i j hi hj : ℕ} (gi : holder rt A r i = some hi) (gj : holder rt A r j = some hj)
    (hl : heap'.length = heap.length)
    (hnz : ∀ q b, nz heap' (some q) b = if q = hi then nz heap (some hj) b else if q = hj then nz heap (some hi) b
        else nz heap (some q) b)
    (hrt : ∀ q x, q < r → (x / 2 ^ (r - q) = i ∨ x / 2 ^ (r - q) = j) → rt q x = false) :
    Shape heap' rt (permAddr r (Equiv.swap i j) A) ∧
    ∀ q x b, q ≤ r → nz heap' (holder rt (permAddr r (Equiv.swap i j) A) q x) b =
      nz heap (holder rt A q (up (r - q) (Equiv.swap i j) x)) b := by
  set P := Equiv.swap i j with hP
  -- untouched rows
  have nzo : ∀ q y p b, A q y = some p → q ≠ r → nz heap' (some p) b = nz heap (some p) b := by
    intro q y p b hp hq
    obtain ⟨x1, e1⟩ := holder_addr gi
    obtain ⟨x2, e2⟩ := holder_addr gj
    rw [hnz, if_neg, if_neg]
    · intro he; subst he; exact hq (s.inj _ _ _ _ _ hp e2).1
    · intro he; subst he; exact hq (s.inj _ _ _ _ _ hp e1).1
  have hup : ∀ q x, q < r → rt q (up (r - q) P x) = rt q x := by
    intro q x hq
    by_cases h : x / 2 ^ (r - q) = i ∨ x / 2 ^ (r - q) = j
    · rw [hrt q x hq h, hrt q _ hq]
      rw [up_div]
      rcases h with h | h <;> rw [h, hP]
      · right; exact swap_apply_left i j
      · left; exact swap_apply_right i j
    · congr 1
      apply up_fix
      rw [hP, swap_apply_of_ne_of_ne (by tauto) (by tauto)]
  have hhol : ∀ q x, q < r → holder rt (permAddr r P A) q x = holder rt A q (up (r - q) P x) := by
    intro q x hq
    unfold holder permAddr
    rw [if_pos hq, if_pos hq, ← up_sb (by omega), hup q x hq, hup q _ hq]
  have hhol2 : ∀ q x, r ≤ q → holder rt (permAddr r P A) q x = holder rt A q x := by
    intro q x hq
    have e : ∀ x, permAddr r P A q x = A q x := fun x => by unfold permAddr; rw [if_neg (by omega)]
    unfold holder
    rw [e, e]
  have hr : ∀ x b, nz heap' (holder rt A r x) b = nz heap (holder rt A r (P x)) b := by
    intro x b
    by_cases h1 : x = i
    · subst h1
      rw [hP, swap_apply_left, gi, gj, hnz, if_pos rfl]
    · by_cases h2 : x = j
      · subst h2
        rw [hP, swap_apply_right, gi, gj, hnz]
        by_cases h3 : hj = hi
        · rw [if_pos h3, h3]
        · rw [if_neg h3, if_pos rfl]
      · rw [hP, swap_apply_of_ne_of_ne h1 h2]
        cases hh : holder rt A r x with
        | none => rfl
        | some p =>
          rw [hnz, if_neg, if_neg]
          · intro he; subst he; exact h2 (s.holder_inj hh gj).2
          · intro he; subst he; exact h1 (s.holder_inj hh gi).2
  have hkey : ∀ q x b, q ≤ r → nz heap' (holder rt (permAddr r P A) q x) b =
      nz heap (holder rt A q (up (r - q) P x)) b := by
    intro q x b hq
    rcases Nat.lt_or_eq_of_le hq with h | h
    · rw [hhol q x h]
      cases hh : holder rt A q (up (r - q) P x) with
      | none => rfl
      | some p =>
        obtain ⟨y, hy⟩ := holder_addr hh
        exact nzo q y p b hy (by omega)
    · subst h
      rw [hhol2 q x le_rfl, Nat.sub_self, up_zero, hr]
  refine ⟨⟨?_, ?_, ?_, ?_, ?_, ?rank⟩, hkey⟩
  case rank =>
    obtain ⟨rk, r0, r1, r2⟩ := s.rank
    obtain ⟨x1, e1⟩ := holder_addr gi
    obtain ⟨x2, e2⟩ := holder_addr gj
    refine ⟨rk, r0, fun q x p h => ?_, fun p b k hb hk => ?_⟩
    · unfold permAddr at h
      split at h <;> exact r1 _ _ _ h
    · rw [hl]
      rw [hnz] at hk
      by_cases c1 : p = hi
      · rw [if_pos c1] at hk
        rw [c1, r1 _ _ _ e1, ← r1 _ _ _ e2]
        exact r2 _ b k hb hk
      · rw [if_neg c1] at hk
        by_cases c2 : p = hj
        · rw [if_pos c2] at hk
          rw [c2, r1 _ _ _ e2, ← r1 _ _ _ e1]
          exact r2 _ b k hb hk
        · rw [if_neg c2] at hk
          exact r2 _ b k hb hk
  · intro q y hy
    rcases Nat.lt_or_ge q r with h | h
    · rw [hkey (q + 1) _ _ (by omega)]
      have e : permAddr r P A q y = A q (up (r - q) P y) := by unfold permAddr; rw [if_pos h]
      rw [e, s.kids q _ (by rw [hup q y h]; exact hy)]
      have e2 : up (r - q) P y = 2 * up (r - (q + 1)) P (y / 2) + y % 2 := by
        have := up_succ_two (r - (q + 1)) P (y / 2) (y % 2) (by omega)
        rw [show r - (q + 1) + 1 = r - q by omega, show 2 * (y / 2) + y % 2 = y by omega] at this
        exact this
      rw [e2, show (2 * up (r - (q + 1)) P (y / 2) + y % 2) / 2 = up (r - (q + 1)) P (y / 2) by omega,
        show (2 * up (r - (q + 1)) P (y / 2) + y % 2) % 2 = y % 2 by omega]
    · rw [hhol2 _ _ (by omega)]
      have e : permAddr r P A q y = A q y := by unfold permAddr; rw [if_neg (by omega)]
      rw [e, s.kids q y hy]
      cases hh : holder rt A (q + 1) (y / 2) with
      | none => rfl
      | some p =>
        obtain ⟨z, hz⟩ := holder_addr hh
        exact (nzo _ z p _ hz (by omega)).symm
  · intro q x q' x' p h1 h2
    unfold permAddr at h1 h2
    split at h1 <;> split at h2
    · obtain ⟨rfl, h⟩ := s.inj _ _ _ _ _ h1 h2
      exact ⟨rfl, (up _ P).injective h⟩
    · obtain ⟨rfl, -⟩ := s.inj _ _ _ _ _ h1 h2; omega
    · obtain ⟨rfl, -⟩ := s.inj _ _ _ _ _ h1 h2; omega
    · exact s.inj _ _ _ _ _ h1 h2
  · intro q x p h
    rw [hl]
    unfold permAddr at h
    split at h <;> exact s.bnd _ _ _ h
  · intro x
    unfold permAddr
    by_cases h0 : 0 < r
    · rw [if_pos h0]
      cases hh : A 0 (up (r - 0) P x) with
      | none => simp [nz]
      | some p =>
        rw [nzo 0 _ p _ hh (by omega), nzo 0 _ p _ hh (by omega), ← hh]
        exact s.leaf _
    · have : r = 0 := by omega
      subst this
      rw [if_neg (by omega)]
      cases hh : A 0 x with
      | none => simp [nz]
      | some p =>
        obtain ⟨x1, e1⟩ := holder_addr gi
        obtain ⟨x2, e2⟩ := holder_addr gj
        rw [hnz, hnz]
        by_cases c1 : p = hi
        · rw [if_pos c1, if_pos c1, ← e2]; exact s.leaf _
        · rw [if_neg c1, if_neg c1]
          by_cases c2 : p = hj
          · rw [if_pos c2, if_pos c2, ← e1]; exact s.leaf _
          · rw [if_neg c2, if_neg c2, ← hh]; exact s.leaf _
  · intro q x h
    unfold permAddr
    split
    · rename_i hq
      exact s.root q _ (by rw [hup q x hq]; exact h)
    · exact s.root q x h

/-- The hashes after exchanging two subtrees. -/
theorem Hashed.swap {heap heap' : List (INode H)} {rt : ℕ → ℕ → Bool} {A : Addr} {c : ℕ → ℕ → H}
    (s : Shape heap rt A) (hc : Hashed heap A c) {r i j pi pj : ℕ} (gi : A r i = some pi) (gj : A r j = some pj)
    (hhz : ∀ q, hz heap' q = if q = pi then hz heap pj else if q = pj then hz heap pi else hz heap q) :
    Hashed heap' (permAddr r (Equiv.swap i j) A) (permCells r (Equiv.swap i j) c) := by
  intro q x p h
  show hz heap' p = _
  unfold permCells
  rcases Nat.lt_trichotomy q r with hq | hq | hq
  · rw [if_pos (by omega)]
    unfold permAddr at h
    rw [if_pos hq] at h
    rw [hhz, if_neg, if_neg]
    · exact hc _ _ _ h
    · intro he; subst he; have := (s.inj _ _ _ _ _ h gj).1; omega
    · intro he; subst he; have := (s.inj _ _ _ _ _ h gi).1; omega
  · subst hq
    unfold permAddr at h
    rw [if_neg (by omega)] at h
    rw [if_pos le_rfl, Nat.sub_self, up_zero, hhz]
    by_cases h1 : x = i
    · subst h1
      rw [gi] at h
      injection h with h
      rw [if_pos h.symm, swap_apply_left]
      exact hc _ _ _ gj
    · have n1 : p ≠ pi := by
        intro he; subst he; exact h1 (s.inj _ _ _ _ _ h gi).2
      rw [if_neg n1]
      by_cases h2 : x = j
      · subst h2
        rw [gj] at h
        injection h with h
        rw [if_pos h.symm, swap_apply_right]
        exact hc _ _ _ gi
      · have n2 : p ≠ pj := by
          intro he; subst he; exact h2 (s.inj _ _ _ _ _ h gj).2
        rw [if_neg n2, swap_apply_of_ne_of_ne h1 h2]
        exact hc _ _ _ h
  · unfold permAddr at h
    rw [if_neg (by omega)] at h
    rw [if_neg (by omega), hhz, if_neg, if_neg]
    · exact hc _ _ _ h
    · intro he; subst he; have := (s.inj _ _ _ _ _ h gj).1; omega
    · intro he; subst he; have := (s.inj _ _ _ _ _ h gi).1; omega

end Pol
end Utreexo
