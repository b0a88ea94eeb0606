import Verif.Proof.RamRemove
import Verif.Model.Pollard

/-!
# The shape of a pollard's heap

The objects of a pollard are described by an address map: `A r i` is the pointer to the object with
the hash of the node `i` of row `r`, if it is cached. The children of a node hang off its sibling
(off the node itself if it is a root): `holder` is the object that points to them.
-/

set_option linter.unusedSectionVars false

namespace Utreexo
open Spec Equiv

variable {H : Type} [DecidableEq H] [HashOps H]

namespace Pol

/-- Address map: row, index, pointer. -/
abbrev Addr := ℕ → ℕ → Option ℕ

/-- Niece `b` of the object at a pointer. -/
def nz (heap : List (INode H)) (p : Option ℕ) (b : ℕ) : Option ℕ :=
  p.bind fun q => (heap[q]?).bind fun x => INode.niece x b

/-- The object that holds the children of node `i` of row `q`. -/
def holder (rt : ℕ → ℕ → Bool) (A : Addr) (q i : ℕ) : Option ℕ :=
  if rt q i then A q i else if rt q (i ^^^ 1) then none else A q (i ^^^ 1)

/-- Every object of the heap, addressed or not, has a rank that is one more than the rank of its nieces; objects of
row `r` have rank `r + 1` and `m_remember` has rank `0`. -/
def Ranked (heap : List (INode H)) (A : Addr) : Prop :=
  ∃ rk : ℕ → ℕ, rk 0 = 0 ∧ (∀ r i p, A r i = some p → rk p = r + 1) ∧
    ∀ p b k, b < 2 → nz heap (some p) b = some k → k < heap.length ∧ rk p = rk k + 1

/-- Removing references. -/
theorem Ranked.mono {heap heap' : List (INode H)} {A A' : Addr} (h : Ranked heap A) (hl : heap.length ≤ heap'.length)
    (hA : ∀ r i p, A' r i = some p → A r i = some p)
    (hnz : ∀ p b, b < 2 → nz heap' (some p) b = none ∨ nz heap' (some p) b = nz heap (some p) b) : Ranked heap' A' := by
  obtain ⟨rk, h0, h1, h2⟩ := h
  refine ⟨rk, h0, fun r i p hp => h1 r i p (hA r i p hp), fun p b k hb hk => ?_⟩
  rcases hnz p b hb with e | e
  · rw [e] at hk; simp at hk
  · rw [e] at hk
    have := h2 p b k hb hk
    exact ⟨by omega, this.2⟩

/-- The heap has the address map `A` with roots `rt`. -/
structure Shape (heap : List (INode H)) (rt : ℕ → ℕ → Bool) (A : Addr) : Prop where
  kids : ∀ r y, rt r y = false → A r y = nz heap (holder rt A (r + 1) (y / 2)) (y % 2)
  inj : ∀ r i r' i' p, A r i = some p → A r' i' = some p → r = r' ∧ i = i'
  bnd : ∀ r i p, A r i = some p → p ≠ 0 ∧ p < heap.length
  leaf : ∀ i, nz heap (A 0 i) 1 = none ∧ (nz heap (A 0 i) 0 = none ∨ nz heap (A 0 i) 0 = some 0)
  root : ∀ r i, rt r i = true → (A r i).isSome
  rank : Ranked heap A

/-- The objects hold the hashes `c`. -/
def Hashed (heap : List (INode H)) (A : Addr) (c : ℕ → ℕ → H) : Prop :=
  ∀ r i p, A r i = some p → (heap[p]?).map INode.hash = some (c r i)

theorem nz_none (heap : List (INode H)) (b : ℕ) : nz heap none b = none := rfl

theorem nz_some {heap : List (INode H)} {p : ℕ} {x : INode H} (h : heap[p]? = some x) (b : ℕ) :
    nz heap (some p) b = INode.niece x b := by
  unfold nz; simp [h]

theorem holder_some {rt : ℕ → ℕ → Bool} {A : Addr} {q i p : ℕ} (h : holder rt A q i = some p) :
    (rt q i = true ∧ A q i = some p) ∨ (rt q i = false ∧ rt q (i ^^^ 1) = false ∧ A q (i ^^^ 1) = some p) := by
  unfold holder at h
  split at h
  · exact .inl ⟨by assumption, h⟩
  · split at h
    · simp at h
    · right; simp_all

theorem Shape.holder_inj {heap : List (INode H)} {rt : ℕ → ℕ → Bool} {A : Addr} (s : Shape heap rt A)
    {q i q' i' p : ℕ} (h : holder rt A q i = some p) (h' : holder rt A q' i' = some p) : q = q' ∧ i = i' := by
  rcases holder_some h with ⟨a1, a2⟩ | ⟨a1, a2, a3⟩ <;> rcases holder_some h' with ⟨b1, b2⟩ | ⟨b1, b2, b3⟩
  · exact s.inj _ _ _ _ _ a2 b2
  · obtain ⟨rfl, rfl⟩ := s.inj _ _ _ _ _ a2 b3
    rw [a1] at b2; simp at b2
  · obtain ⟨rfl, rfl⟩ := s.inj _ _ _ _ _ a3 b2
    rw [b1] at a2; simp at a2
  · obtain ⟨rfl, h⟩ := s.inj _ _ _ _ _ a3 b3
    exact ⟨rfl, sb_inj.1 h⟩

/-- A holder is some object of its row. -/
theorem holder_addr {rt : ℕ → ℕ → Bool} {A : Addr} {q i p : ℕ} (h : holder rt A q i = some p) :
    ∃ j, A q j = some p := by
  rcases holder_some h with ⟨_, h⟩ | ⟨_, _, h⟩ <;> exact ⟨_, h⟩

theorem Shape.get {heap : List (INode H)} {rt : ℕ → ℕ → Bool} {A : Addr} (s : Shape heap rt A)
    {r i p : ℕ} (h : A r i = some p) : ∃ x, heap[p]? = some x :=
  ⟨heap[p]'(s.bnd r i p h).2, List.getElem?_eq_getElem _⟩

theorem Shape.hget {heap : List (INode H)} {rt : ℕ → ℕ → Bool} {A : Addr} (s : Shape heap rt A)
    {r i p : ℕ} (h : holder rt A r i = some p) : ∃ x, heap[p]? = some x := by
  obtain ⟨j, hj⟩ := holder_addr h
  exact s.get hj

/-- A node below a present node has a holder. -/
theorem Shape.holder_of {heap : List (INode H)} {rt : ℕ → ℕ → Bool} {A : Addr} (s : Shape heap rt A)
    {r y p : ℕ} (h : A r y = some p) (hr : rt r y = false) : ∃ q, holder rt A (r + 1) (y / 2) = some q := by
  rw [s.kids r y hr] at h
  cases hh : holder rt A (r + 1) (y / 2) with
  | none => rw [hh] at h; simp [nz] at h
  | some q => exact ⟨q, rfl⟩

/-- The shape depends only on the nieces of the objects. -/
theorem Shape.congr {heap heap' : List (INode H)} {rt : ℕ → ℕ → Bool} {A : Addr} (s : Shape heap rt A)
    (hl : heap.length ≤ heap'.length)
    (hall : ∀ p b, nz heap' (some p) b = nz heap (some p) b) : Shape heap' rt A := by
  have h : ∀ r i p b, A r i = some p → nz heap' (some p) b = nz heap (some p) b := fun _ _ p b _ => hall p b
  refine ⟨?_, s.inj, fun r i p hp => ?_, ?_, s.root, s.rank.mono hl (fun _ _ _ h => h) fun p b _ => .inr (hall p b)⟩
  · intro r y hy
    rw [s.kids r y hy]
    cases hh : holder rt A (r + 1) (y / 2) with
    | none => rfl
    | some q =>
      obtain ⟨j, hj⟩ := holder_addr hh
      rw [h _ _ _ _ hj]
  · have := s.bnd r i p hp; omega
  · intro i
    cases hh : A 0 i with
    | none => simp [nz]
    | some p =>
      rw [h _ _ _ _ hh, h _ _ _ _ hh, ← hh]
      exact s.leaf i

theorem nz_set_ne {heap : List (INode H)} {p q : ℕ} {x : INode H} (h : q ≠ p) (b : ℕ) :
    nz (heap.set p x) (some q) b = nz heap (some q) b := by
  unfold nz
  simp only [Option.bind_some]
  rw [List.getElem?_set_ne (Ne.symm h)]

theorem nz_set_self {heap : List (INode H)} {p : ℕ} {x : INode H} (h : p < heap.length) (b : ℕ) :
    nz (heap.set p x) (some p) b = INode.niece x b := by
  apply nz_some
  rw [List.getElem?_set_self h]

theorem nz_append {heap t : List (INode H)} {q : ℕ} (h : q < heap.length) (b : ℕ) :
    nz (heap ++ t) (some q) b = nz heap (some q) b := by
  unfold nz
  simp only [Option.bind_some]
  rw [List.getElem?_append_left h]

theorem hash_set_ne {heap : List (INode H)} {p q : ℕ} {x : INode H} (h : q ≠ p) :
    ((heap.set p x)[q]?).map INode.hash = (heap[q]?).map INode.hash := by
  rw [List.getElem?_set_ne (Ne.symm h)]

/-- Overwriting the hash of an object. -/
theorem Shape.setHash {heap : List (INode H)} {rt : ℕ → ℕ → Bool} {A : Addr} (s : Shape heap rt A)
    {p : ℕ} {x : INode H} (hx : heap[p]? = some x) (h : H) : Shape (heap.set p { x with hash := h }) rt A := by
  refine s.congr (by simp) ?_
  intro q b
  by_cases hq : q = p
  · subst hq
    rw [nz_set_self (lt_of_get hx), nz_some hx]; rfl
  · exact nz_set_ne hq b

/-- Marking a leaf object. -/
theorem Shape.setFlag {heap : List (INode H)} {rt : ℕ → ℕ → Bool} {A : Addr} (s : Shape heap rt A)
    {i p : ℕ} {x : INode H} (hp : A 0 i = some p) (hx : heap[p]? = some x) {o : Option ℕ} (ho : o = none ∨ o = some 0) :
    Shape (heap.set p { x with n0 := o }) rt A := by
  have hne : ∀ r j q, A r j = some q → (r, j) ≠ (0, i) → q ≠ p := by
    intro r j q hq hn he
    subst he
    obtain ⟨rfl, rfl⟩ := s.inj _ _ _ _ _ hq hp
    exact hn rfl
  refine ⟨?_, s.inj, fun r i p hp => by simpa using s.bnd r i p hp, ?_, s.root, ?rank⟩
  case rank =>
    obtain ⟨rk, r0, r1, r2⟩ := s.rank
    refine ⟨rk, r0, r1, fun q b k hb hk => ?_⟩
    rw [List.length_set]
    by_cases hq : q = p
    · subst hq
      have hpl := lt_of_get hx
      rw [nz_set_self hpl] at hk
      rcases Nat.lt_or_ge b 1 with h | h
      · have : b = 0 := by omega
        subst this
        rcases ho with rfl | rfl
        · simp [INode.niece] at hk
        · simp only [INode.niece, if_true, Option.some.injEq] at hk
          subst hk
          rw [r0, r1 _ _ _ hp]
          exact ⟨by omega, rfl⟩
      · have : b = 1 := by omega
        subst this
        exact r2 q 1 k hb (by rw [nz_some hx]; exact hk)
    · rw [nz_set_ne hq] at hk
      exact r2 q b k hb hk
  · intro r y hy
    rw [s.kids r y hy]
    cases hh : holder rt A (r + 1) (y / 2) with
    | none => rfl
    | some q =>
      obtain ⟨j, hj⟩ := holder_addr hh
      rw [nz_set_ne (hne _ _ _ hj (by simp))]
  · intro j
    by_cases hj : j = i
    · subst hj
      rw [hp, nz_set_self (lt_of_get hx), nz_set_self (lt_of_get hx)]
      have := (s.leaf j).1
      rw [hp, nz_some hx] at this
      exact ⟨this, ho⟩
    · cases hh : A 0 j with
      | none => simp [nz]
      | some q =>
        have := hne _ _ _ hh (by simp [hj])
        rw [nz_set_ne this, nz_set_ne this, ← hh]
        exact s.leaf j

/-- Address map with one entry replaced. -/
def upd (A : Addr) (r i : ℕ) (v : Option ℕ) : Addr := fun r' i' => if r' = r ∧ i' = i then v else A r' i'

theorem upd_self (A : Addr) (r i : ℕ) (v : Option ℕ) : upd A r i v r i = v := by simp [upd]

theorem upd_ne {A : Addr} {r i : ℕ} {v : Option ℕ} {r' i' : ℕ} (h : ¬ (r' = r ∧ i' = i)) :
    upd A r i v r' i' = A r' i' := by simp [upd, h]

theorem niece_setNiece (x : INode H) {b c : ℕ} (hb : b < 2) (hc : c < 2) (v : Option ℕ) :
    INode.niece (INode.setNiece x b v) c = if c = b then v else INode.niece x c := by
  unfold INode.niece INode.setNiece
  rcases Nat.lt_or_ge b 1 with h | h <;> rcases Nat.lt_or_ge c 1 with h' | h'
  · have : b = 0 := by omega
    have : c = 0 := by omega
    subst b c; simp
  · have : b = 0 := by omega
    have : c = 1 := by omega
    subst b c; simp
  · have : b = 1 := by omega
    have : c = 0 := by omega
    subst b c; simp
  · have : b = 1 := by omega
    have : c = 1 := by omega
    subst b c; simp

theorem holder_upd_row {rt : ℕ → ℕ → Bool} {A : Addr} {r i : ℕ} {v : Option ℕ} {q j : ℕ} (h : q ≠ r) :
    holder rt (upd A r i v) q j = holder rt A q j := by
  unfold holder
  rw [upd_ne (by tauto), upd_ne (by tauto)]

/-- An object without nieces. -/
def fresh (h : H) : INode H := { hash := h, n0 := none, n1 := none }

/-- Hooking a fresh object below a holder. -/
theorem Shape.alloc {heap : List (INode H)} {rt : ℕ → ℕ → Bool} {A : Addr} (s : Shape heap rt A)
    {q x b p : ℕ} {z : INode H} {h0 : H} (hp : holder rt A (q + 1) x = some p) (hz : heap[p]? = some z) (hb : b < 2)
    (hn : A q (2 * x + b) = none) (hrt : rt q (2 * x + b) = false) :
    Shape ((heap ++ [fresh h0]).set p (INode.setNiece z b (some heap.length))) rt
      (upd A q (2 * x + b) (some heap.length)) := by
  have hpl := lt_of_get hz
  set new := heap.length with hnew
  have hlen : ((heap ++ [fresh h0]).set p (INode.setNiece z b (some new))).length = new + 1 := by
    simp [hnew]
  have hlt : ∀ r i p, A r i = some p → p < new := fun r i p h => (s.bnd r i p h).2
  have nzp : ∀ c, c < 2 → nz ((heap ++ [fresh h0]).set p (INode.setNiece z b (some new)))
      (some p) c = if c = b then some new else nz heap (some p) c := by
    intro c hc
    rw [nz_set_self (by simp; omega), niece_setNiece z hb hc, nz_some hz]
  have nzo : ∀ t c, t ≠ p → t < new → nz ((heap ++ [fresh h0]).set p (INode.setNiece z b (some new)))
      (some t) c = nz heap (some t) c := by
    intro t c h1 h2
    rw [nz_set_ne h1, nz_append h2]
  have nzn : ∀ c, nz ((heap ++ [fresh h0]).set p (INode.setNiece z b (some new)))
      (some new) c = none := by
    intro c
    rw [nz_set_ne (by omega)]
    have : (heap ++ [fresh h0])[new]? =
        some (fresh h0) := by simp [hnew]
    rw [nz_some this]; unfold INode.niece fresh; split <;> rfl
  refine ⟨?_, ?_, ?_, ?_, ?_, ?rank⟩
  case rank =>
    obtain ⟨rk, r0, r1, r2⟩ := s.rank
    obtain ⟨jp, hjp⟩ := holder_addr hp
    have hnz0 : new ≠ 0 := by have := s.bnd _ _ _ hjp; omega
    refine ⟨fun t => if t = new then q + 1 else rk t, by simp only [if_neg hnz0.symm, r0], fun r i t h => ?_, fun t c k hc hk => ?_⟩
    · by_cases e : r = q ∧ i = 2 * x + b
      · obtain ⟨rfl, rfl⟩ := e
        rw [upd_self] at h
        injection h with h
        simp only [← h, if_true]
      · rw [upd_ne e] at h
        have := hlt _ _ _ h
        simp only [if_neg (show ¬ t = new by omega), r1 _ _ _ h]
    · rw [hlen]
      rcases Nat.lt_trichotomy t new with h | h | h
      · by_cases e : t = p
        · subst e
          rw [nzp c hc] at hk
          split at hk
          · simp only [Option.some.injEq] at hk
            subst hk
            simp only [if_true, if_neg (show ¬ t = new by omega), r1 _ _ _ hjp]
            exact ⟨by omega, trivial⟩
          · have := r2 t c k hc hk
            simp only [if_neg (show ¬ t = new by omega), if_neg (show ¬ k = new by omega)]
            exact ⟨by omega, this.2⟩
        · rw [nzo t c e h] at hk
          have := r2 t c k hc hk
          simp only [if_neg (show ¬ t = new by omega), if_neg (show ¬ k = new by omega)]
          exact ⟨by omega, this.2⟩
      · rw [h, nzn] at hk; simp at hk
      · unfold nz at hk
        rw [Option.bind_some, List.getElem?_eq_none (by rw [hlen]; omega)] at hk
        simp at hk
  · intro r y hy
    by_cases hrq : r = q
    · subst hrq
      rw [holder_upd_row (by omega)]
      by_cases hyx : y / 2 = x
      · rw [hyx, hp, nzp _ (by omega)]
        by_cases hyb : y % 2 = b
        · have : y = 2 * x + b := by omega
          rw [this, upd_self]
          simp only [show (2 * x + b) % 2 = b by omega, if_true]
        · rw [upd_ne (by omega), if_neg hyb, s.kids r y hy, hyx, hp]
      · rw [upd_ne (by omega), s.kids r y hy]
        cases hh : holder rt A (r + 1) (y / 2) with
        | none => rfl
        | some t =>
          obtain ⟨j, hj⟩ := holder_addr hh
          rw [nzo t _ _ (hlt _ _ _ hj)]
          intro he
          subst he
          exact hyx (s.holder_inj hh hp).2
    · by_cases hrq2 : r + 1 = q
      · subst hrq2
        rw [upd_ne (by tauto), s.kids r y hy]
        -- the holder may be the new object
        unfold holder
        by_cases h1 : rt (r + 1) (y / 2) = true
        · rw [if_pos h1, if_pos h1, upd_ne (by rintro ⟨-, h⟩; rw [h, hrt] at h1; simp at h1)]
          cases hh : A (r + 1) (y / 2) with
          | none => rfl
          | some t =>
            rw [nzo t _ _ (hlt _ _ _ hh)]
            intro he; subst he
            obtain ⟨j, hj⟩ := holder_addr hp
            have := (s.inj _ _ _ _ _ hh hj).1; omega
        · rw [if_neg h1, if_neg h1]
          by_cases h2 : rt (r + 1) (y / 2 ^^^ 1) = true
          · rw [if_pos h2, if_pos h2]; rfl
          · rw [if_neg h2, if_neg h2]
            by_cases h3 : y / 2 ^^^ 1 = 2 * x + b
            · rw [h3, upd_self, nzn, hn]; rfl
            · rw [upd_ne (by tauto)]
              cases hh : A (r + 1) (y / 2 ^^^ 1) with
              | none => rfl
              | some t =>
                rw [nzo t _ _ (hlt _ _ _ hh)]
                intro he; subst he
                obtain ⟨j, hj⟩ := holder_addr hp
                have := (s.inj _ _ _ _ _ hh hj).1; omega
      · rw [upd_ne (by tauto), holder_upd_row (by omega), s.kids r y hy]
        cases hh : holder rt A (r + 1) (y / 2) with
        | none => rfl
        | some t =>
          obtain ⟨j, hj⟩ := holder_addr hh
          rw [nzo t _ _ (hlt _ _ _ hj)]
          intro he; subst he
          have := (s.holder_inj hh hp).1; omega
  · intro r i r' i' t h1 h2
    by_cases e1 : r = q ∧ i = 2 * x + b
    · by_cases e2 : r' = q ∧ i' = 2 * x + b
      · omega
      · obtain ⟨rfl, rfl⟩ := e1
        rw [upd_self] at h1
        rw [upd_ne e2] at h2
        injection h1 with h1
        have := hlt _ _ _ h2; omega
    · rw [upd_ne e1] at h1
      by_cases e2 : r' = q ∧ i' = 2 * x + b
      · obtain ⟨rfl, rfl⟩ := e2
        rw [upd_self] at h2
        injection h2 with h2
        have := hlt _ _ _ h1; omega
      · rw [upd_ne e2] at h2
        exact s.inj _ _ _ _ _ h1 h2
  · intro r i t h1
    rw [hlen]
    by_cases e1 : r = q ∧ i = 2 * x + b
    · obtain ⟨rfl, rfl⟩ := e1
      rw [upd_self] at h1
      injection h1 with h1
      have := s.bnd
      obtain ⟨j, hj⟩ := holder_addr hp
      have := s.bnd _ _ _ hj
      omega
    · rw [upd_ne e1] at h1
      have := s.bnd _ _ _ h1
      omega
  · intro i
    by_cases e1 : 0 = q ∧ i = 2 * x + b
    · obtain ⟨rfl, rfl⟩ := e1
      rw [upd_self, nzn, nzn]; simp
    · rw [upd_ne e1]
      cases hh : A 0 i with
      | none => simp [nz]
      | some t =>
        have : t ≠ p := by
          intro he; subst he
          obtain ⟨j, hj⟩ := holder_addr hp
          have := (s.inj _ _ _ _ _ hh hj).1; omega
        rw [nzo t _ this (hlt _ _ _ hh), nzo t _ this (hlt _ _ _ hh), ← hh]
        exact s.leaf i
  · intro r i h
    rw [upd_ne]
    · exact s.root r i h
    · rintro ⟨rfl, rfl⟩
      rw [hrt] at h; simp at h

/-- Dropping an object whose nieces are both null. -/
theorem Shape.drop {heap : List (INode H)} {rt : ℕ → ℕ → Bool} {A : Addr} (s : Shape heap rt A)
    {q x b p t : ℕ} {z : INode H} (hp : holder rt A (q + 1) x = some p) (hz : heap[p]? = some z) (hb : b < 2)
    (hn : A q (2 * x + b) = some t) (hrt : rt q (2 * x + b) = false)
    (hd : nz heap (some t) 0 = none ∧ nz heap (some t) 1 = none) :
    Shape (heap.set p (INode.setNiece z b none)) rt (upd A q (2 * x + b) none) := by
  have hpl := lt_of_get hz
  have nzp : ∀ c, c < 2 → nz (heap.set p (INode.setNiece z b none)) (some p) c =
      if c = b then none else nz heap (some p) c := by
    intro c hc
    rw [nz_set_self hpl, niece_setNiece z hb hc, nz_some hz]
  obtain ⟨jp, hjp⟩ := holder_addr hp
  refine ⟨?_, ?_, ?_, ?_, ?_, ?rank⟩
  case rank =>
    refine s.rank.mono (by simp) (fun r i t h => ?_) fun t c hc => ?_
    · by_cases e : r = q ∧ i = 2 * x + b
      · obtain ⟨rfl, rfl⟩ := e
        rw [upd_self] at h; simp at h
      · rw [upd_ne e] at h; exact h
    · by_cases e : t = p
      · subst e
        rw [nzp c hc]
        split
        · exact .inl rfl
        · exact .inr rfl
      · exact .inr (nz_set_ne e c)
  · intro r y hy
    by_cases hrq : r = q
    · subst hrq
      rw [holder_upd_row (by omega)]
      by_cases hyx : y / 2 = x
      · rw [hyx, hp, nzp _ (by omega)]
        by_cases hyb : y % 2 = b
        · have : y = 2 * x + b := by omega
          rw [this, upd_self]
          simp only [show (2 * x + b) % 2 = b by omega, if_true]
        · rw [upd_ne (by omega), if_neg hyb, s.kids r y hy, hyx, hp]
      · rw [upd_ne (by omega), s.kids r y hy]
        cases hh : holder rt A (r + 1) (y / 2) with
        | none => rfl
        | some t =>
          rw [nz_set_ne]
          intro he
          subst he
          exact hyx (s.holder_inj hh hp).2
    · by_cases hrq2 : r + 1 = q
      · subst hrq2
        rw [upd_ne (by tauto), s.kids r y hy]
        unfold holder
        by_cases h1 : rt (r + 1) (y / 2) = true
        · rw [if_pos h1, if_pos h1, upd_ne (by rintro ⟨-, h⟩; rw [h, hrt] at h1; simp at h1)]
          cases hh : A (r + 1) (y / 2) with
          | none => rfl
          | some t =>
            rw [nz_set_ne]
            intro he; subst he
            have := (s.inj _ _ _ _ _ hh hjp).1; omega
        · rw [if_neg h1, if_neg h1]
          by_cases h2 : rt (r + 1) (y / 2 ^^^ 1) = true
          · rw [if_pos h2, if_pos h2]; rfl
          · rw [if_neg h2, if_neg h2]
            by_cases h3 : y / 2 ^^^ 1 = 2 * x + b
            · rw [h3, upd_self, hn, nz_none]
              rcases Nat.lt_or_ge (y % 2) 1 with h | h
              · rw [show y % 2 = 0 by omega]; exact hd.1
              · rw [show y % 2 = 1 by omega]; exact hd.2
            · rw [upd_ne (by tauto)]
              cases hh : A (r + 1) (y / 2 ^^^ 1) with
              | none => rfl
              | some t =>
                rw [nz_set_ne]
                intro he; subst he
                have := (s.inj _ _ _ _ _ hh hjp).1; omega
      · rw [upd_ne (by tauto), holder_upd_row (by omega), s.kids r y hy]
        cases hh : holder rt A (r + 1) (y / 2) with
        | none => rfl
        | some t =>
          rw [nz_set_ne]
          intro he; subst he
          have := (s.holder_inj hh hp).1; omega
  · intro r i r' i' t h1 h2
    by_cases e1 : r = q ∧ i = 2 * x + b
    · obtain ⟨rfl, rfl⟩ := e1
      rw [upd_self] at h1; simp at h1
    · rw [upd_ne e1] at h1
      by_cases e2 : r' = q ∧ i' = 2 * x + b
      · obtain ⟨rfl, rfl⟩ := e2
        rw [upd_self] at h2; simp at h2
      · rw [upd_ne e2] at h2
        exact s.inj _ _ _ _ _ h1 h2
  · intro r i t h1
    by_cases e1 : r = q ∧ i = 2 * x + b
    · obtain ⟨rfl, rfl⟩ := e1
      rw [upd_self] at h1; simp at h1
    · rw [upd_ne e1] at h1
      simpa using s.bnd _ _ _ h1
  · intro i
    by_cases e1 : 0 = q ∧ i = 2 * x + b
    · obtain ⟨rfl, rfl⟩ := e1
      rw [upd_self]; simp [nz]
    · rw [upd_ne e1]
      cases hh : A 0 i with
      | none => simp [nz]
      | some t =>
        have : t ≠ p := by
          intro he; subst he
          have := (s.inj _ _ _ _ _ hh hjp).1; omega
        rw [nz_set_ne this, nz_set_ne this, ← hh]
        exact s.leaf i
  · intro r i h
    rw [upd_ne]
    · exact s.root r i h
    · rintro ⟨rfl, rfl⟩
      rw [hrt] at h; simp at h

end Pol
end Utreexo
