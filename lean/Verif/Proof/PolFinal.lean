import Verif.Proof.PolRemove
import Verif.Proof.RowFirst

/-! # `Pollard::FinalizeRemove` and `Remove` -/

set_option linter.unusedSectionVars false

namespace Utreexo
open Spec Equiv

variable {H : Type} [DecidableEq H] [HashOps H]

namespace Pol

theorem PH.eraseLoop_ok {s : Pollard H} {n : ℕ} {A : Addr} {c : ℕ → ℕ → H} (h : PH s n A c) (hn : n ≤ 2 ^ 62) :
    ∀ (k pos : ℕ) (m : PosMap H), pos + k ≤ n → ∃ m', eraseLoop s pos k m = .ok m' ∧
      (∀ g, (∃ x, pos ≤ x ∧ x < pos + k ∧ (A 0 x).isSome ∧ c 0 x = g) → PosMap.find m' g = none) ∧
      (∀ g, (¬ ∃ x, pos ≤ x ∧ x < pos + k ∧ (A 0 x).isSome ∧ c 0 x = g) → PosMap.find m' g = PosMap.find m g) ∧
      (∀ g, PosMap.find m g = none → PosMap.find m' g = none) := by
  intro k
  induction k with
  | zero => intro pos m _; exact ⟨m, rfl, by rintro g ⟨x, h1, h2, -⟩; omega, fun _ _ => rfl, fun _ h => h⟩
  | succ k ih =>
    intro pos m hp
    have h1 := h.read_ok hn (r := 0) (i := pos) (by simp; omega)
    rw [posOf_zero] at h1
    rw [eraseLoop, h1, ok_bind]
    cases hA : A 0 pos with
    | none =>
      obtain ⟨m', e1, e2, e3, e4⟩ := ih (pos + 1) m (by omega)
      refine ⟨m', e1, ?_, ?_, e4⟩
      · rintro g ⟨x, h1, h2, h3, h4⟩
        refine e2 g ⟨x, ?_, by omega, h3, h4⟩
        by_contra hc
        rw [show x = pos by omega, hA] at h3
        simp at h3
      · rintro g hg
        exact e3 g (fun ⟨x, h1, h2, h3⟩ => hg ⟨x, by omega, by omega, h3⟩)
    | some p =>
      obtain ⟨m', e1, e2, e3, e4⟩ := ih (pos + 1) (PosMap.erase m (c 0 pos)) (by omega)
      refine ⟨m', e1, ?_, ?_, ?_⟩
      · rintro g ⟨x, h1, h2, h3, h4⟩
        by_cases hx : x = pos
        · subst hx
          exact e4 g (by rw [PosMap.find_erase, if_pos h4.symm])
        · exact e2 g ⟨x, by omega, by omega, h3, h4⟩
      · rintro g hg
        rw [e3 g (fun ⟨x, h1, h2, h3⟩ => hg ⟨x, by omega, by omega, h3⟩), PosMap.find_erase, if_neg]
        rintro rfl
        exact hg ⟨pos, by omega, by omega, by rw [hA]; rfl, rfl⟩
      · intro g hg
        apply e4
        rw [PosMap.find_erase]; split
        · rfl
        · exact hg

/-- The object of the new root of row `t`. -/
def isNew (n' : ℕ) (A : Addr) (p : ℕ) (t : ℕ) : Prop := n'.testBit t = true ∧ A t (rootIdx n' t) = some p

/-- Selecting the roots `ts`, rows ascending, all above the rows done before. -/
theorem selectRoots_ok {s0 : Pollard H} {n n' : ℕ} {A : Addr} {c : ℕ → ℕ → H} (h : PH s0 n A c) (hn : n ≤ 2 ^ 62)
    (hle : n' ≤ n) (hnew : ∀ q, n'.testBit q = true → (A q (rootIdx n' q)).isSome) :
    ∀ (ts : List ℕ) (b : ℕ) (heap : List (INode H)) (acc : List PNode), ts.Pairwise (· < ·) → (∀ t ∈ ts, b ≤ t ∧ n'.testBit t = true) →
    heap.length = s0.ext.length → (∀ p, hz heap p = hz s0.ext p) →
    (∀ p x, (∃ t, t < b ∧ isNew n' A p t ∧ ∀ b, nz heap (some p) b = nz s0.ext (holder (rtOf n) A t (rootIdx n' t)) b) ∨
      ((∀ t, t < b → ¬ isNew n' A p t) ∧ nz heap (some p) x = nz s0.ext (some p) x)) →
    (∀ t, n'.testBit t = true → t < b ∨ t ∈ ts) →
    ∃ heap' roots, selectRoots { s0 with ext := heap } (ts.map fun t => posOf (St.numRows n) t (rootIdx n' t)) acc =
        .ok ({ s0 with ext := heap' }, roots) ∧
      heap'.length = s0.ext.length ∧ (∀ p, hz heap' p = hz s0.ext p) ∧
      (∀ p x, (∃ t, isNew n' A p t ∧ ∀ b, nz heap' (some p) b = nz s0.ext (holder (rtOf n) A t (rootIdx n' t)) b) ∨
        ((∀ t, ¬ isNew n' A p t) ∧ nz heap' (some p) x = nz s0.ext (some p) x)) ∧
      roots.map (fun r => r.e.node) = (ts.reverse.map fun t => A t (rootIdx n' t)) ++ acc.map (fun r => r.e.node) ∧
      roots.map (fun r => r.e.sib) = (ts.reverse.map fun t => A t (rootIdx n' t)) ++ acc.map (fun r => r.e.sib) := by
  intro ts
  induction ts with
  | nil =>
    intro b heap acc _ _ hl hh hnz hall
    refine ⟨heap, acc, rfl, hl, hh, ?_, by simp, by simp⟩
    intro p x
    rcases hnz p x with ⟨t, -, h1, h2⟩ | ⟨h1, h2⟩
    · exact .inl ⟨t, h1, h2⟩
    · right
      refine ⟨fun t ht => ?_, h2⟩
      rcases hall t ht.1 with h3 | h3
      · exact h1 t h3 ht
      · simp at h3
  | cons t ts ih =>
    intro b heap acc hs hts hl hh hnz hall
    obtain ⟨ht1, ht2⟩ := hts t (by simp)
    have hin : rootIdx n' t < n / 2 ^ t := lt_of_lt_of_le (Ram.root_in ht2) (Nat.div_le_div_right hle)
    obtain ⟨np, hnp⟩ := Option.isSome_iff_exists.1 (hnew t ht2)
    -- objects of rows from `b` on are untouched
    have hsame : ∀ q y p x, b ≤ q → A q y = some p → nz heap (some p) x = nz s0.ext (some p) x := by
      intro q y p x hq hp
      rcases hnz p x with ⟨t', h1, h2, -⟩ | ⟨-, h2⟩
      · have := (h.shape.inj _ _ _ _ _ hp h2.2).1; omega
      · exact h2
    have hkids : KidsFrom heap (rtOf n) A t := by
      intro q y hq hf
      rw [h.shape.kids q y hf]
      cases hp : holder (rtOf n) A (q + 1) (y / 2) with
      | none => rfl
      | some p =>
        obtain ⟨j, hj⟩ := holder_addr hp
        exact (hsame _ _ _ _ (by omega) hj).symm
    obtain ⟨tt, path, -, -, g, -⟩ := readSiblings_ok (s := { s0 with ext := heap }) h.num hn hkids
      (fun q y p hp => by show p < heap.length; rw [hl]; exact (h.shape.bnd q y p hp).2) h.roots hin
    have hnl : np < heap.length := by rw [hl]; exact (h.shape.bnd _ _ _ hnp).2
    obtain ⟨x, hx⟩ : ∃ x, heap[np]? = some x := ⟨_, List.getElem?_eq_getElem hnl⟩
    -- the heap after this root
    have hstep : ∃ heap1, (match holder (rtOf n) A t (rootIdx n' t) with
        | some q => (do
          let y ← vecGet heap q
          store heap (some np) { x with n0 := y.n0, n1 := y.n1 })
        | none => store heap (some np) { x with n0 := none, n1 := none }) = .ok heap1 ∧
        heap1.length = heap.length ∧ (∀ p, hz heap1 p = hz heap p) ∧
        (∀ b, nz heap1 (some np) b = nz s0.ext (holder (rtOf n) A t (rootIdx n' t)) b) ∧
        (∀ p b, p ≠ np → nz heap1 (some p) b = nz heap (some p) b) := by
      cases hp : holder (rtOf n) A t (rootIdx n' t) with
      | none =>
        refine ⟨heap.set np (wKids x (fresh HashOps.zero)), store_ok hnl _, by simp, ?_, ?_, fun p b hne => nz_set_ne hne b⟩
        · intro p
          rw [hz_set hnl]
          split
          · rename_i e; subst e; unfold hz; rw [hx]; rfl
          · rfl
        · intro b
          rw [nz_set_self hnl, niece_pair]
          unfold fresh INode.niece
          simp [nz]
      | some q =>
        obtain ⟨j, hj⟩ := holder_addr hp
        have hql : q < heap.length := by rw [hl]; exact (h.shape.bnd _ _ _ hj).2
        obtain ⟨y, hy⟩ : ∃ y, heap[q]? = some y := ⟨_, List.getElem?_eq_getElem hql⟩
        refine ⟨heap.set np (wKids x y), ?_, by simp, ?_, ?_, fun p b hne => nz_set_ne hne b⟩
        · simp only
          rw [vecGet_ok hy, ok_bind]
          exact store_ok hnl _
        · intro p
          rw [hz_set hnl]
          split
          · rename_i e; subst e; unfold hz; rw [hx]; rfl
          · rfl
        · intro b
          rw [nz_set_self hnl, niece_pair, ← hsame _ _ _ _ ht1 hj, nz_some hy]
    obtain ⟨heap1, w1, w2, w3, w4, w5⟩ := hstep
    have hpw := List.pairwise_cons.1 hs
    obtain ⟨heap', roots, g1, g2, g3, g4, g5, g6⟩ := ih (t + 1) heap1
      ({ e := { node := some np, sib := some np, pos := posOf (St.numRows n) t (rootIdx n' t) }, up := [] } :: acc)
      hpw.2 (fun t' ht' => ⟨hpw.1 t' ht', (hts t' (by simp [ht'])).2⟩) (by omega) (fun p => by rw [w3, hh]) (by
        intro p x
        by_cases hp : p = np
        · subst hp
          exact .inl ⟨t, by omega, ⟨ht2, hnp⟩, w4⟩
        · rcases hnz p x with ⟨t', h1, h2, h3⟩ | ⟨h1, h2⟩
          · exact .inl ⟨t', by omega, h2, fun b => by rw [w5 p b hp, h3]⟩
          · right
            refine ⟨fun t' ht' hn' => ?_, by rw [w5 p x hp, h2]⟩
            rcases (by omega : t' < b ∨ (b ≤ t' ∧ t' < t) ∨ t' = t) with h3 | h3 | h3
            · exact h1 t' h3 hn'
            · rcases hall t' hn'.1 with h4 | h4
              · omega
              · rcases List.mem_cons.1 h4 with h5 | h5
                · omega
                · have := hpw.1 t' h5; omega
            · subst h3
              have := hn'.2
              rw [hnp] at this
              exact hp (Option.some.inj this).symm) (by
        intro t' ht'
        rcases hall t' ht' with h3 | h3
        · left; omega
        · rcases List.mem_cons.1 h3 with h4 | h4
          · left; omega
          · exact .inr h4)
    refine ⟨heap', roots, ?_, g2, g3, g4, ?_, ?_⟩
    · rw [List.map_cons, selectRoots, g, ok_bind]
      simp only
      rw [hnp, deref_ok hx, ok_bind]
      cases hp : holder (rtOf n) A t (rootIdx n' t) with
      | none =>
        rw [hp] at w1
        simp only at w1 ⊢
        rw [w1, ok_bind]; exact g1
      | some q =>
        rw [hp] at w1
        simp only at w1 ⊢
        rw [← bind_assoc, w1, ok_bind]; exact g1
    · rw [g5]; simp [hnp]
    · rw [g6]; simp [hnp]

/-- The address map of the smaller forest. -/
def cut (n' : ℕ) (A : Addr) : Addr := fun r x => if x < n' / 2 ^ r then A r x else none

theorem cut_in {n' : ℕ} {A : Addr} {r x : ℕ} (h : x < n' / 2 ^ r) : cut n' A r x = A r x := if_pos h

theorem cut_out {n' : ℕ} {A : Addr} {r x : ℕ} (h : ¬ x < n' / 2 ^ r) : cut n' A r x = none := if_neg h

theorem cut_some {n' : ℕ} {A : Addr} {r x p : ℕ} (h : cut n' A r x = some p) : x < n' / 2 ^ r ∧ A r x = some p := by
  unfold cut at h
  split at h
  · exact ⟨by assumption, h⟩
  · simp at h

/-- The sibling of a node outside of the forest is outside too, or a root. -/
theorem sib_out {n r y : ℕ} (h : ¬ y < n / 2 ^ r) (h' : y ^^^ 1 < n / 2 ^ r) : rtOf n r (y ^^^ 1) = true := by
  rw [rtOf_iff h', sb_div, div_succ_row]
  rw [xor_one_cases] at h'
  split at h' <;> omega

theorem sib_in {n r y : ℕ} (h : y < n / 2 ^ r) (hf : rtOf n r y = false) : y / 2 < n / 2 ^ (r + 1) := by
  by_contra hc
  rw [(rtOf_iff h).2 hc] at hf
  simp at hf

theorem Shape.cut {heap heap' : List (INode H)} {n n' : ℕ} {A : Addr} (s : Shape heap (rtOf n) A) (hle : n' ≤ n)
    (hnew : ∀ q, n'.testBit q = true → (A q (rootIdx n' q)).isSome) (hl : heap'.length = heap.length)
    (hnz : ∀ p x, (∃ t, isNew n' A p t ∧ ∀ b, nz heap' (some p) b = nz heap (holder (rtOf n) A t (rootIdx n' t)) b) ∨
        ((∀ t, ¬ isNew n' A p t) ∧ nz heap' (some p) x = nz heap (some p) x)) :
    Shape heap' (rtOf n') (cut n' A) := by
  have hdiv : ∀ r, n' / 2 ^ r ≤ n / 2 ^ r := fun r => Nat.div_le_div_right hle
  -- nieces of a new root, and of the others
  have hroot : ∀ r y p b, rtOf n' r y = true → A r y = some p → nz heap' (some p) b = nz heap (holder (rtOf n) A r y) b := by
    intro r y p b hr hp
    obtain ⟨h1, h2⟩ := rtOf_true.1 hr
    rcases hnz p b with ⟨t, ⟨h3, h4⟩, h5⟩ | ⟨h3, -⟩
    · obtain ⟨rfl, -⟩ := s.inj _ _ _ _ _ hp h4
      rw [h5, h2]
    · exact absurd ⟨h1, by rw [← h2]; exact hp⟩ (h3 r)
  have hother : ∀ r y p b, rtOf n' r y = false → A r y = some p → nz heap' (some p) b = nz heap (some p) b := by
    intro r y p b hr hp
    rcases hnz p b with ⟨t, ⟨h3, h4⟩, h5⟩ | ⟨-, h3⟩
    · exfalso
      obtain ⟨rfl, rfl⟩ := s.inj _ _ _ _ _ hp h4
      rw [rtOf_true.2 ⟨h3, rfl⟩] at hr
      simp at hr
    · exact h3
  refine ⟨?_, ?_, ?_, ?_, ?_, ?rank⟩
  case rank =>
    obtain ⟨rk, r0, r1, r2⟩ := s.rank
    refine ⟨rk, r0, fun r i p h => r1 _ _ _ (cut_some h).2, fun p b k hb hk => ?_⟩
    rw [hl]
    rcases hnz p b with ⟨t, ⟨-, h4⟩, h5⟩ | ⟨-, h5⟩
    · rw [h5] at hk
      cases hh : holder (rtOf n) A t (rootIdx n' t) with
      | none => rw [hh] at hk; simp [nz] at hk
      | some u =>
        rw [hh] at hk
        obtain ⟨j, hj⟩ := holder_addr hh
        rw [r1 _ _ _ h4, ← r1 _ _ _ hj]
        exact r2 _ b k hb hk
    · rw [h5] at hk
      exact r2 _ b k hb hk
  · intro r y hy
    by_cases hin : y < n' / 2 ^ r
    · have hp := sib_in hin hy
      have hpn : y / 2 < n / 2 ^ (r + 1) := lt_of_lt_of_le hp (hdiv _)
      rw [cut_in hin, s.kids r y (rtOf_false hpn)]
      by_cases hrt : rtOf n' (r + 1) (y / 2) = true
      · rw [holder_root hrt, cut_in hp]
        obtain ⟨h1, h2⟩ := rtOf_true.1 hrt
        obtain ⟨p, hp'⟩ := Option.isSome_iff_exists.1 (hnew (r + 1) h1)
        rw [← h2] at hp'
        rw [hp', hroot _ _ _ _ hrt hp']
      · simp only [Bool.not_eq_true] at hrt
        have hpp := sib_in hp hrt
        have f2 : rtOf n' (r + 1) (y / 2 ^^^ 1) = false := rtOf_false (by rw [sb_div]; exact hpp)
        have hs : y / 2 ^^^ 1 < n' / 2 ^ (r + 1) := by
          rw [div_succ_row] at hpp
          rw [xor_one_cases]; split <;> omega
        have hppn : y / 2 / 2 < n / 2 ^ (r + 1 + 1) := lt_of_lt_of_le hpp (hdiv _)
        rw [holder_sib hrt f2, cut_in hs, holder_sib (rtOf_false hppn) (rtOf_false (by rw [sb_div]; exact hppn))]
        cases hA : A (r + 1) (y / 2 ^^^ 1) with
        | none => rfl
        | some p => exact (hother _ _ _ _ f2 hA).symm
    · have hp : ¬ y / 2 < n' / 2 ^ (r + 1) := by rw [div_succ_row]; omega
      rw [cut_out hin]
      have f1 : rtOf n' (r + 1) (y / 2) = false := by
        by_contra hc
        simp only [Bool.not_eq_false] at hc
        exact hp (rtOf_in hc)
      by_cases f2 : rtOf n' (r + 1) (y / 2 ^^^ 1) = true
      · rw [holder_none f1 f2]; rfl
      · have f2' : rtOf n' (r + 1) (y / 2 ^^^ 1) = false := by simpa using f2
        rw [holder_sib f1 f2', cut_out (fun hc => f2 (sib_out hp hc))]
        rfl
  · intro r i r' i' p h1 h2
    exact s.inj _ _ _ _ _ (cut_some h1).2 (cut_some h2).2
  · intro r i p h
    rw [hl]; exact s.bnd _ _ _ (cut_some h).2
  · intro i
    by_cases hin : i < n' / 2 ^ 0
    · rw [cut_in hin]
      cases hA : A 0 i with
      | none => exact ⟨rfl, .inl rfl⟩
      | some p =>
        by_cases hrt : rtOf n' 0 i = true
        · rw [hroot _ _ _ _ hrt hA, hroot _ _ _ _ hrt hA]
          cases hp : holder (rtOf n) A 0 i with
          | none => exact ⟨rfl, .inl rfl⟩
          | some q =>
            obtain ⟨j, hj⟩ := holder_addr hp
            rw [← hj]; exact s.leaf j
        · simp only [Bool.not_eq_true] at hrt
          rw [hother _ _ _ _ hrt hA, hother _ _ _ _ hrt hA, ← hA]
          exact s.leaf i
    · rw [cut_out hin]; exact ⟨rfl, .inl rfl⟩
  · intro r i h
    rw [cut_in (rtOf_in h)]
    obtain ⟨h1, rfl⟩ := rtOf_true.1 h
    exact hnew r h1

theorem cut_flag {heap heap' : List (INode H)} {n n' : ℕ} {A : Addr} (s : Shape heap (rtOf n) A) (hle : n' ≤ n)
    (hnew : ∀ q, n'.testBit q = true → (A q (rootIdx n' q)).isSome)
    (hnz : ∀ p x, (∃ t, isNew n' A p t ∧ ∀ b, nz heap' (some p) b = nz heap (holder (rtOf n) A t (rootIdx n' t)) b) ∨
        ((∀ t, ¬ isNew n' A p t) ∧ nz heap' (some p) x = nz heap (some p) x)) {x : ℕ} (hx : x < n') :
    Flag heap' (rtOf n') (Pol.cut n' A) x ↔ Flag heap (rtOf n) A x := by
  have hx0 : x < n' / 2 ^ 0 := by simpa using hx
  unfold Flag
  suffices nz heap' (holder (rtOf n') (Pol.cut n' A) 0 x) 0 = nz heap (holder (rtOf n) A 0 x) 0 by rw [this]
  by_cases hrt : rtOf n' 0 x = true
  · rw [holder_root hrt, cut_in hx0]
    obtain ⟨h1, h2⟩ := rtOf_true.1 hrt
    obtain ⟨p, hp⟩ := Option.isSome_iff_exists.1 (hnew 0 h1)
    rw [← h2] at hp
    rw [hp]
    rcases hnz p 0 with ⟨t, ⟨h3, h4⟩, h5⟩ | ⟨h3, -⟩
    · obtain ⟨rfl, -⟩ := s.inj _ _ _ _ _ hp h4
      rw [h5, h2]
    · exact absurd ⟨h1, by rw [← h2]; exact hp⟩ (h3 0)
  · simp only [Bool.not_eq_true] at hrt
    have hpp := sib_in hx0 hrt
    have f2 : rtOf n' 0 (x ^^^ 1) = false := rtOf_false (by rw [sb_div]; exact hpp)
    have hs : x ^^^ 1 < n' / 2 ^ 0 := by
      rw [div_succ_row] at hpp
      rw [xor_one_cases]; split <;> omega
    have hppn : x / 2 < n / 2 ^ (0 + 1) := lt_of_lt_of_le hpp (Nat.div_le_div_right hle)
    rw [holder_sib hrt f2, cut_in hs, holder_sib (rtOf_false hppn) (rtOf_false (by rw [sb_div]; exact hppn))]
    cases hA : A 0 (x ^^^ 1) with
    | none => rfl
    | some p =>
      rcases hnz p 0 with ⟨t, ⟨h3, h4⟩, h5⟩ | ⟨-, h3⟩
      · exfalso
        obtain ⟨rfl, h6⟩ := s.inj _ _ _ _ _ hA h4
        rw [rtOf_true.2 ⟨h3, h6⟩] at f2
        simp at f2
      · exact h3

theorem selectRoots_up : ∀ (ps : List ℕ) (s s' : Pollard H) (acc roots : List PNode),
    selectRoots s ps acc = .ok (s', roots) → (∀ r ∈ acc, r.up = []) → ∀ r ∈ roots, r.up = [] := by
  intro ps
  induction ps with
  | nil =>
    intro s s' acc roots h ha
    rw [selectRoots] at h
    simp only [Except.ok.injEq, Prod.mk.injEq] at h
    rw [← h.2]; exact ha
  | cons p ps ih =>
    intro s s' acc roots h ha
    rw [selectRoots] at h
    cases h1 : readSiblings s p with
    | error e => rw [h1] at h; simp at h
    | ok v =>
      obtain ⟨node, sib, path⟩ := v
      rw [h1, ok_bind] at h
      simp only at h
      cases h2 : deref s.ext node with
      | error e => rw [h2] at h; simp at h
      | ok x =>
        rw [h2, ok_bind] at h
        have key : ∀ (w : Res (List (INode H))), (w >>= fun heap => selectRoots { s with ext := heap } ps
            ({ e := { node := node, sib := node, pos := p }, up := [] } :: acc)) = .ok (s', roots) → ∀ r ∈ roots, r.up = [] := by
          intro w hw
          cases w with
          | error e => simp at hw
          | ok heap =>
            rw [ok_bind] at hw
            refine ih _ _ _ _ hw fun r hr => ?_
            rcases List.mem_cons.1 hr with rfl | hr
            · rfl
            · exact ha r hr
        cases sib with
        | none => exact key _ h
        | some q =>
          cases h3 : vecGet s.ext q with
          | error e => simp only [h3] at h; simp at h
          | ok y => simp only [h3, ok_bind] at h; exact key _ h

theorem PH.finalizeRemove_ok {s : Pollard H} {n n' : ℕ} {A : Addr} {c : ℕ → ℕ → H} (h : PH s n A c) (hn : n ≤ 2 ^ 62)
    (hle : n' ≤ n) (hnew : ∀ q, n'.testBit q = true → (A q (rootIdx n' q)).isSome) :
    ∃ s', finalizeRemove s n' = .ok s' ∧ PH { s' with numLeaves := n' } n' (cut n' A) c ∧
      (∀ x, x < n' → (Flag s'.ext (rtOf n') (cut n' A) x ↔ Flag s.ext (rtOf n) A x)) ∧
      (∀ g, (∃ x, n' ≤ x ∧ x < n ∧ (A 0 x).isSome ∧ c 0 x = g) → PosMap.find s'.posmap g = none) ∧
      (∀ g, (¬ ∃ x, n' ≤ x ∧ x < n ∧ (A 0 x).isSome ∧ c 0 x = g) → PosMap.find s'.posmap g = PosMap.find s.posmap g) := by
  obtain ⟨m, hm, hm1, hm2, -⟩ := h.eraseLoop_ok hn (n - n') n' s.posmap (by omega)
  have h' : PH { s with posmap := m } n A c := ⟨h.num, h.shape, h.hashed, h.roots, h.pos⟩
  have hrev : (treeRows n' 64).reverse.Pairwise (· < ·) := List.pairwise_reverse.2 (treeRows_sorted _ _)
  obtain ⟨heap', roots, g1, g2, g3, g4, g5, g6⟩ := selectRoots_ok h' hn hle hnew (treeRows n' 64).reverse 0 s.ext [] hrev
    (fun t ht => ⟨Nat.zero_le _, (mem_treeRows.1 (List.mem_reverse.1 ht)).2⟩) rfl (fun _ => rfl)
    (fun p x => .inr ⟨fun t ht => by omega, rfl⟩) (by
      intro t ht
      right
      rw [List.mem_reverse, mem_treeRows]
      refine ⟨?_, ht⟩
      by_contra hc
      have : n' < 2 ^ t := lt_of_le_of_lt (le_trans hle hn) (Nat.pow_lt_pow_right (by omega) (by omega))
      rw [Nat.testBit_lt_two_pow this] at ht
      simp at ht)
  refine ⟨{ s with posmap := m, ext := heap', roots := roots }, ?_, ⟨rfl, ?_, ?_, ?_, by show 0 < heap'.length; rw [g2]; exact h.pos⟩,
    fun x hx => cut_flag h.shape hle hnew g4 hx, fun g hg => hm1 g (by rwa [show n' + (n - n') = n by omega]),
    fun g hg => hm2 g (by rwa [show n' + (n - n') = n by omega])⟩
  · unfold finalizeRemove
    simp only [h.num]
    rw [hm, ok_bind, rootPositionsOf_eq hn hle, ok_bind, Ram.treeRows_eq hn hle, ← List.map_reverse]
    have g1' : selectRoots { s with posmap := m } (((treeRows n' 64).reverse.map fun t => posOf (St.numRows n) t (rootIdx n' t))) [] = _ := g1
    simp only [← h.num] at g1' ⊢
    rw [g1', ok_bind]
    rfl
  · exact h.shape.cut hle hnew g2 g4
  · intro r i p hp
    show hz heap' p = _
    rw [g3]
    exact h.hashed _ _ _ (cut_some hp).2
  · have e : (rootCoords n').map (fun x => cut n' A x.1 x.2) = (treeRows n' 64).map fun t => A t (rootIdx n' t) := by
      unfold rootCoords
      rw [List.map_map]
      apply List.map_congr_left
      intro t ht
      exact cut_in (Ram.root_in (mem_treeRows.1 ht).2)
    rw [List.reverse_reverse, List.map_nil, List.append_nil] at g5 g6
    exact ⟨by rw [e]; exact g5, by rw [e]; exact g6, selectRoots_up _ _ _ _ _ g1 (by simp)⟩

/-- The invariant of a pollard whose hashes are those of the forest with leaves `f`. -/
structure Inv (s : Pollard H) (n : ℕ) (f : ℕ → H) (A : Addr) : Prop where
  ph : PH s n A (mt f)
  out : ∀ r y, ¬ y < n / 2 ^ r → A r y = none

/-- What `Verify` leaves behind for the targets of a removal. -/
structure Ready (heap : List (INode H)) (n : ℕ) (A : Addr) (D : List ℕ) : Prop where
  pres : PresAll n A D
  flag : ∀ t ∈ D, (nz heap (holder (rtOf n) A 0 t) 0).isSome

/-- What a removal does to the leaves, which it moves by `P`: the flags of the survivors are kept, the entries of
the position map are those of before without the removed leaves, and entries whose leaf had its sibling remembered
before and has it remembered afterwards follow their leaf. Every entry follows its leaf if the leaf's object is there in the
end, otherwise only to where the bottom row's swaps took it. The object of a leaf with a sibling is there in the end if the
sibling is remembered, or if the two were siblings before and the object was there. -/
structure RemTrk (s s' : Pollard H) (n n' : ℕ) (D : List ℕ) (f : ℕ → H) (A A' : Addr) (P : Perm ℕ) : Prop where
  flag : ∀ x, P x < n' → (Flag s'.ext (rtOf n') A' (P x) ↔ Flag s.ext (rtOf n) A x)
  gone : ∀ t ∈ D, PosMap.find s'.posmap (f t) = none
  dom : ∀ k, (∀ t ∈ D, f t ≠ k) → (PosMap.find s'.posmap k).isSome = (PosMap.find s.posmap k).isSome
  know : Dist n f → ∀ x, x < n → x ∉ D → (rtOf n 0 x = true ∨ Flag s.ext (rtOf n) A (x ^^^ 1)) →
    (rtOf n' 0 (P x) = true ∨ Flag s.ext (rtOf n) A (P.symm (P x ^^^ 1))) →
    PosMap.find s.posmap (f x) = some x → PosMap.find s'.posmap (f x) = some (P x)
  entry : Dist n f → ∀ x v, x < n → x ∉ D → v < 2 ^ 64 → PosMap.find s.posmap (f x) = some v →
    PosMap.find s'.posmap (f x) = some (mv x (if (A' 0 (P x)).isSome then P x else firstStop x (P.symm (P x ^^^ 1))) v)
  seen : ∀ x, x < n → x ∉ D → P x ^^^ 1 < n' → ((A' 0 (P x)).isSome ↔ Flag s.ext (rtOf n) A (P.symm (P x ^^^ 1)) ∨
    (P.symm (P x ^^^ 1) = x ^^^ 1 ∧ (A 0 x).isSome))

/-- A child is cached exactly if a leaf below its parent is remembered. -/
def Sparse (heap : List (INode H)) (n : ℕ) (A : Addr) : Prop :=
  ∀ q x, x < n / 2 ^ q → kidc heap (rtOf n) A q x = @mt Bool kidOps (kidc heap (rtOf n) A 0) q x

/-- Above the bottom row a node that is not a root is cached only if something below its sibling is. -/
def Tight (n : ℕ) (A : Addr) : Prop := ∀ s x, x < n / 2 ^ s → tcell A s x = true

/-- As `Tight`, except for the children of the nodes above the leaves `D`. -/
def TightBut (n : ℕ) (A : Addr) (D : List ℕ) : Prop := ∀ s x, x < n / 2 ^ s → tcell A s x = true ∨ ∃ t ∈ D, t / 2 ^ s = x

/-- `Remove` with sane targets that the pollard has the nodes of. -/
theorem remove_ok {s : Pollard H} {n : ℕ} {f : ℕ → H} {A : Addr} {D : List ℕ} (h : Inv s n f A) (hn62 : n ≤ 2 ^ 62)
    (hs : D.Pairwise (· < ·)) (hb : ∀ i ∈ D, i < n) (hrd : PresAll n A D) :
    ∃ (s' : Pollard H) (A' : Addr), Acc.remove vt s D = .ok (true, s') ∧
      Inv s' (n - D.length) (f ∘ (sg n (n - D.length) D (St.numRows n) 0).symm) A' ∧
      RemTrk s s' n (n - D.length) D f A A' (sg n (n - D.length) D (St.numRows n) 0) ∧
      (Sparse s.ext n A → Sparse s'.ext (n - D.length) A') ∧ (TightBut n A D → Tight (n - D.length) A') := by
  have hnR : n ≤ 2 ^ St.numRows n := le_two_pow_numRows (by omega)
  have hlen : D.length ≤ n := by
    have := sorted_length_add_le D 0 n hs (fun x hx => ⟨Nat.zero_le _, hb x hx⟩) (Nat.zero_le _)
    omega
  have hi := rowInv hs hb (n' := n - D.length) (by omega)
  unfold Acc.remove
  by_cases hD : D.length = 0
  · have hD' : D = [] := List.eq_nil_of_length_eq_zero hD
    subst hD'
    have h1 := nil_sg hi hnR (St.numRows n) 0 (by omega) rfl
    simp only [List.length_nil, Nat.sub_zero] at h1 ⊢
    rw [h1]
    have hid : f ∘ (1 : Perm ℕ).symm = f := by funext x; rfl
    refine ⟨s, A, rfl, by rw [hid]; exact h, ⟨fun _ _ => Iff.rfl, by simp, fun _ _ => rfl, fun _ _ _ _ _ _ h => h, ?_, ?_⟩,
      fun h => h, fun h s x hx => (h s x hx).resolve_right (by simp)⟩
    · intro _ x v hx _ hv hf
      rw [hf]
      congr 1
      have e : (if (A 0 ((1 : Perm ℕ) x)).isSome then (1 : Perm ℕ) x else
          firstStop x ((1 : Perm ℕ).symm ((1 : Perm ℕ) x ^^^ 1))) = x := by
        split
        · rfl
        · unfold firstStop
          exact if_pos (.inl rfl)
      rw [e, mv_self (by omega) hv]
    · intro x hx _ _
      show (A 0 x).isSome ↔ Flag s.ext (rtOf n) A (x ^^^ 1) ∨ (x ^^^ 1 = x ^^^ 1 ∧ (A 0 x).isSome)
      exact ⟨fun h' => .inr ⟨rfl, h'⟩, fun h' => h'.elim (fun h' => Flag.sib h.ph.shape hx (fun _ => h')) (·.2)⟩
  · rw [if_neg hD]
    obtain ⟨b, hb1, hb2⟩ := C07_checkTargetsSanity n D
    have hbt : b = true := hb2.2 ⟨hs, hb⟩
    subst hbt
    have hv := visited_le n D (St.numRows n) 0
    have hJ : RowSt s n (n - D.length) D A A (mt f) 0 [] := by
      refine ⟨h.ph, fun _ _ _ => rfl, ?_, fun q hq => by omega, ⟨?_, ?_, by simp⟩, by simp, fun _ => rfl⟩
      · intro hz; omega
      · intro q hq x hx; rfl
      · intro q hq x hx; exact .inl rfl
    obtain ⟨s1, A1, c1, a1, a2, a3, a4, a5, a6⟩ := removeRows_ok hn62 hi h.ph.shape hrd (St.numRows n) 0
      (visited n D (St.numRows n) 0) s A (mt f) [] le_rfl (by omega) hv (by
        intro q hq hqR
        exact nil_opsAt hi hnR hqR (visited_nil hi (St.numRows n) 0 q hq (by omega))) hJ
    have hc0 : c1 0 = f ∘ (sg n (n - D.length) D (St.numRows n) 0).symm := by
      rw [a3, up_zero]; rfl
    have hgood : ∀ q x, x < (n - D.length) / 2 ^ q → c1 q x = mt (c1 0) q x := by
      intro q x hx
      have hxn : x < n / 2 ^ q := lt_of_lt_of_le hx (Nat.div_le_div_right (by omega))
      obtain ⟨q1, -⟩ := row_le hn62 hxn
      apply a2.dirt.low q q1
      rw [sg_top _ _ _ le_rfl, up_one]
      exact hx
    have hnew : ∀ q, (n - D.length).testBit q = true → (A1 q (rootIdx (n - D.length) q)).isSome := by
      intro q hq
      have hqR : q < St.numRows n := by
        by_contra hc
        have : n - D.length < 2 ^ q :=
          lt_of_lt_of_le (by omega : n - D.length < 2 ^ St.numRows n) (Nat.pow_le_pow_right (by omega) (by omega))
        rw [Nat.testBit_lt_two_pow this] at hq
        simp at hq
      have := a2.new q hqR hq
      rw [sg_top _ _ _ le_rfl, up_one] at this
      exact this
    obtain ⟨s2, b1, b2, b3, b4, b5⟩ := a2.ph.finalizeRemove_ok hn62 (n' := n - D.length) (by omega) hnew
    refine ⟨{ s2 with numLeaves := n - D.length }, cut (n - D.length) A1, ?_, ⟨⟨b2.num, b2.shape, ?_, b2.roots, b2.pos⟩, ?_⟩, ?_, ?_, ?_⟩
    · simp only [h.ph.num]
      rw [hb1, ok_bind]
      simp only [Bool.not_true, Bool.false_eq_true, if_false]
      rw [transform_eq hn62 hs hb, ok_bind]
      have a1' : Acc.removeRows vt n (St.numRows n) ((List.range' 0 (visited n D (St.numRows n) 0)).map fun q =>
        posOps (St.numRows n) q (opsAt n (n - D.length) D q (sg n (n - D.length) D (St.numRows n) (q + 1)))) s [] = _ := a1
      rw [a1', ok_bind]
      simp only
      rw [cassert_true (by simp), ok_bind, a2.ph.num, sub64_ok hlen (by omega)]
      have b1' : vt.finalizeRemove s1 (n - D.length) = _ := b1
      rw [b1', ok_bind]
      rfl
    · intro q x p hp
      rw [b2.hashed q x p hp, hgood q x (cut_some hp).1, hc0]
    · intro q x hx
      exact cut_out hx
    · have hS := sg_sinks hi hnR (r := 0) (Nat.zero_le _)
      rw [up_zero] at a4
      have hmem : ∀ x, x ∈ D ↔ n - D.length ≤ sg n (n - D.length) D (St.numRows n) 0 x ∧
          sg n (n - D.length) D (St.numRows n) 0 x < n := by
        intro x
        have := hS.mem x
        simpa [Dn] using this
      have hfix : ∀ x, n ≤ x → sg n (n - D.length) D (St.numRows n) 0 x = x := by
        intro x hx
        exact hS.fix x (by simpa using hx)
      have hcs : ∀ x, c1 0 (sg n (n - D.length) D (St.numRows n) 0 x) = f x := by
        intro x; rw [hc0]; simp
      have hdel := a4.del rfl
      -- the bottom row's swaps
      have hbot : ∀ x, x < n → x ∉ D → sg n (n - D.length) D (St.numRows n) 0 x < n - D.length →
          sg n (n - D.length) D (St.numRows n) 0 x ^^^ 1 < n - D.length → 1 < n ∧
          rtOf n 0 (rowPerm n (n - D.length) D 0 (sg n (n - D.length) D (St.numRows n) 1) x) = false ∧
          (rowPerm n (n - D.length) D 0 (sg n (n - D.length) D (St.numRows n) 1)).symm
            (rowPerm n (n - D.length) D 0 (sg n (n - D.length) D (St.numRows n) 1) x ^^^ 1) =
            (sg n (n - D.length) D (St.numRows n) 0).symm (sg n (n - D.length) D (St.numRows n) 0 x ^^^ 1) ∧
          rowPerm n (n - D.length) D 0 (sg n (n - D.length) D (St.numRows n) 1) x =
            firstStop x ((sg n (n - D.length) D (St.numRows n) 0).symm (sg n (n - D.length) D (St.numRows n) 0 x ^^^ 1)) ∧
          (rowPerm n (n - D.length) D 0 (sg n (n - D.length) D (St.numRows n) 1) x / 2 ∈ (Sn n D 0).map (fun p => p.2 / 2) ↔
            (sg n (n - D.length) D (St.numRows n) 0).symm (sg n (n - D.length) D (St.numRows n) 0 x ^^^ 1) ≠ x ^^^ 1) := by
        intro x hx hxD hlt hlt'
        have h1n : 1 < n := by
          have := sb_ne (sg n (n - D.length) D (St.numRows n) 0 x)
          omega
        have hR0 : 0 < St.numRows n := by
          by_contra hc
          rw [show St.numRows n = 0 by omega] at hnR
          omega
        have hst := sg_step n (n - D.length) D hR0
        have hS1 := sg_sinks hi hnR (r := 0 + 1) (by omega)
        have hu1 : ∀ y, n ≤ y → up 1 (sg n (n - D.length) D (St.numRows n) (0 + 1)) y = y :=
          fun y hy => up1_fix (r := 0) hS1 (by simpa using hy)
        have hcd := colDst_spec (n - D.length) 0 (sg n (n - D.length) D (St.numRows n) (0 + 1))
        have hfst := @rowPerm_first n (n - D.length) D (sg n (n - D.length) D (St.numRows n) (0 + 1)) (hi 0) hS1
        rw [show (1 : ℕ) = 0 + 1 from rfl] at *
        generalize rowPerm n (n - D.length) D 0 (sg n (n - D.length) D (St.numRows n) (0 + 1)) = Q at *
        generalize colDst (n - D.length) 0 (sg n (n - D.length) D (St.numRows n) (0 + 1)) = cd at *
        generalize sg n (n - D.length) D (St.numRows n) (0 + 1) = ρ at *
        generalize sg n (n - D.length) D (St.numRows n) 0 = P at *
        have hPQ : ∀ y, P y = up (0 + 1) ρ (Q y) := fun y => by rw [hst]; rfl
        obtain ⟨z, hz⟩ : ∃ z, z = P.symm (P x ^^^ (0 + 1)) := ⟨_, rfl⟩
        have hPz : P z = P x ^^^ (0 + 1) := by rw [hz, Equiv.apply_symm_apply]
        rw [← hz]
        have hzn : z < n := by
          by_contra hc
          have := hfix z (by omega)
          omega
        have hzD : z ∉ D := fun hc => by have := (hmem z).1 hc; omega
        have hQ : Q x ^^^ (0 + 1) = Q z := by
          apply (up (0 + 1) ρ).injective
          rw [← hPQ z, hPz, hPQ x]
          exact up_sb (by omega) ρ (Q x)
        have hQb : ∀ y, P y < n → Q y < n := by
          intro y hy
          by_contra hc
          have := hu1 (Q y) (by omega)
          rw [← hPQ] at this
          omega
        have hsb := xor_one_cases (P x)
        have hc1 : ∀ y, P y < n - D.length → P y ^^^ (0 + 1) < n - D.length → Q y ≠ cd := by
          intro y h1 h2 e
          rw [← e, ← hPQ] at hcd
          have := xor_one_cases (P y)
          rw [show (0 + 1 : ℕ) = 1 from rfl] at *
          rw [pow_one] at hcd
          rw [if_pos (by omega)] at this
          omega
        obtain ⟨k1, k2⟩ := hfst hxD hzD hQ (hc1 x hlt hlt') (hc1 z (by omega) (by
          rw [hPz, show (0 + 1 : ℕ) = 1 from rfl, sb_sb]; exact hlt))
        refine ⟨h1n, ?_, ?_, k1, k2⟩
        · have b1 := hQb x (by omega)
          have b2 := hQb z (by omega)
          apply rtOf_false
          rw [← hQ] at b2
          have := xor_one_cases (Q x)
          rw [show (0 + 1 : ℕ) = 1 from rfl] at *
          rw [pow_one]
          split at this <;> omega
        · rw [hQ, Equiv.symm_apply_apply]
      generalize rowPerm n (n - D.length) D 0 (sg n (n - D.length) D (St.numRows n) 1) = Q at *
      generalize sg n (n - D.length) D (St.numRows n) 0 = P at *
      have hlt : ∀ x, x < n → P x < n := by
        intro x hx
        by_contra hc
        have h1 := hfix (P x) (by omega)
        have := P.injective h1
        omega
      have hpre : ∀ y, n - D.length ≤ y → y < n → P.symm y ∈ D := by
        intro y h1 h2
        rw [hmem, Equiv.apply_symm_apply]; exact ⟨h1, h2⟩
      have hex : ∀ g, (∃ x, n - D.length ≤ x ∧ x < n ∧ (A1 0 x).isSome ∧ c1 0 x = g) ↔ ∃ t ∈ D, f t = g := by
        intro g
        constructor
        · rintro ⟨x, h1, h2, -, h4⟩
          refine ⟨P.symm x, hpre x h1 h2, ?_⟩
          rw [← hcs, Equiv.apply_symm_apply]; exact h4
        · rintro ⟨t, ht, rfl⟩
          obtain ⟨h1, h2⟩ := (hmem t).1 ht
          exact ⟨P t, h1, h2, hdel t ht, hcs t⟩
      have hmt : mt f 0 = f := rfl
      rw [hmt] at a4
      have hlow : ∀ x, x < n → x ∉ D → P x < n - D.length := by
        intro x hx hxD
        by_contra hc
        exact hxD ((hmem x).2 ⟨by omega, hlt x hx⟩)
      have hA' : ∀ y, y < n - D.length → cut (n - D.length) A1 0 y = A1 0 y := fun y hy => cut_in (by simpa using hy)
      refine ⟨?_, ?_, ?_, ?_, ?_, ?_⟩
      · intro x hx
        rw [← a4.flag x]
        exact b3 _ hx
      · intro t ht
        exact b4 _ ((hex _).2 ⟨t, ht, rfl⟩)
      · intro k hk
        rw [← a4.dom k]
        show (PosMap.find s2.posmap k).isSome = _
        rw [b5 k (fun hc => by obtain ⟨t, h1, h2⟩ := (hex k).1 hc; exact hk t h1 h2)]
      · intro hd x hx hxD h1 h2 hf
        have h3 := a4.know hd x hx (fun _ => h1) (fun _ => ?_) (by omega) hf
        · rw [← h3]
          apply b5
          rw [hex]
          rintro ⟨t, ht, e⟩
          rw [hd t x (hb t ht) hx e] at ht
          exact hxD ht
        · rcases h2 with h2 | h2
          · by_cases hrn : rtOf n 0 (P x) = true
            · exact .inl hrn
            · right
              simp only [Bool.not_eq_true] at hrn
              have h4 := sib_lt (hlt x hx) hrn
              obtain ⟨e1, e2⟩ := rtOf_true.1 h2
              have h5 := rtOf_in h2
              rw [Nat.testBit_zero] at e1
              unfold rootIdx at e2
              simp at e1 e2 h5
              refine .inr (hpre _ ?_ h4)
              rw [xor_one_cases]; split <;> omega
          · exact .inr (.inl h2)
      · intro hd x v hx hxD hv hf
        have h3 := a4.entry hd x v hx hv hf
        have hl := hlow x hx hxD
        have h4 : PosMap.find s2.posmap (f x) = PosMap.find s1.posmap (f x) := by
          apply b5
          rw [hex]
          rintro ⟨t, ht, e⟩
          rw [hd t x (hb t ht) hx e] at ht
          exact hxD ht
        show PosMap.find s2.posmap (f x) = _
        rw [h4, h3, hA' _ hl, if_pos rfl]
        by_cases hp : (A1 0 (P x)).isSome
        · rw [if_pos hp, if_pos hp]
        · rw [if_neg hp, if_neg hp]
          have hrt : rtOf (n - D.length) 0 (P x) = false := by
            by_contra hc
            have := b2.shape.root 0 (P x) (by simpa using hc)
            rw [hA' _ hl] at this
            exact hp this
          rw [(hbot x hx hxD hl (sib_lt hl hrt)).2.2.2.1]
      · intro x hx hxD hs1
        have hl := hlow x hx hxD
        obtain ⟨k0, k1, k2, k3, k4⟩ := hbot x hx hxD hl hs1
        rw [hA' _ hl, a4.seen rfl k0 x hx k1, k2]
        apply or_congr_right
        constructor
        · rintro ⟨h3, h4⟩
          have hz : P.symm (P x ^^^ 1) = x ^^^ 1 := by
            by_contra hc
            exact h4 (k4.2 hc)
          refine ⟨hz, ?_⟩
          rw [k3, hz] at h3
          unfold firstStop at h3
          rwa [if_pos (.inl rfl)] at h3
        · rintro ⟨h3, h4⟩
          refine ⟨?_, fun hc => k4.1 hc h3⟩
          rw [k3, h3]
          unfold firstStop
          rwa [if_pos (.inl rfl)]
    · intro hsp
      have hd := a5 (@DirtInv.mk Bool kidOps _ _ _ _ _ _ _ (fun q hq x hx => by
          obtain rfl : q = 0 := by omega
          rfl) (fun q hq x hx => .inl (hsp q x hx)) (by simp))
      have hq0 : ∀ q x, x < (n - D.length) / 2 ^ q →
          kidc s2.ext (rtOf (n - D.length)) (cut (n - D.length) A1) q x = kidc s1.ext (rtOf n) A1 q x := by
        intro q x hx
        cases q with
        | zero =>
          simp only [kidc]
          rw [Bool.eq_iff_iff]
          exact b3 x (by simpa using hx)
        | succ q =>
          simp only [kidc]
          have := Ram.child_bound hx
          rw [cut_in (by omega), cut_in (by omega)]
      intro q x hx
      show kidc s2.ext (rtOf (n - D.length)) (cut (n - D.length) A1) q x = _
      obtain ⟨q1, -⟩ := row_le hn62 (lt_of_lt_of_le hx (Nat.div_le_div_right (by omega : n - D.length ≤ n)))
      have hlow := @DirtInv.low Bool kidOps _ _ _ _ _ _ _ hd q q1 x (by rw [sg_top _ _ _ le_rfl, up_one]; exact hx)
      rw [hq0 q x hx, hlow]
      refine @mt_congr Bool kidOps _ _ q x ?_
      intro y hy
      refine (hq0 0 y ?_).symm
      rw [pow_zero, Nat.div_one]
      rw [← hy] at hx
      exact Nat.lt_of_div_lt_div hx
    · intro hT s x hx
      have hd := a6 (@DirtInv.mk Bool trueOps _ _ _ _ _ _ _ (fun q hq x hx => by
          obtain rfl : q = 0 := by omega
          rfl) (fun q hq x hx => by
          rcases hT q x hx with h1 | ⟨t, h1, h2⟩
          · left; rw [h1, tcell_zero, mt_true]
          · exact .inr (.inr ⟨t, by simpa [Dn] using h1, h2⟩)) (by simp))
      obtain ⟨q1, -⟩ := row_le hn62 (lt_of_lt_of_le hx (Nat.div_le_div_right (by omega : n - D.length ≤ n)))
      have hlow := @DirtInv.low Bool trueOps _ _ _ _ _ _ _ hd s q1 x (by rw [sg_top _ _ _ le_rfl, up_one]; exact hx)
      rw [tcell_zero, mt_true] at hlow
      match s, hx, hlow with
      | 0, _, _ => rfl
      | 1, _, _ => rfl
      | q + 2, hx, hlow =>
        rw [← hlow]
        have h2 := Ram.child_bound hx
        have h3 : 2 * (2 * x + 1) + 1 < (n - D.length) / 2 ^ q := by
          have : 2 * x + 1 < (n - D.length) / 2 ^ (q + 1) := by omega
          have := Ram.child_bound this
          omega
        exact tcell_congr (fun b hb => cut_in (by omega)) (fun b hb => cut_in (by omega))

end Pol
end Utreexo
