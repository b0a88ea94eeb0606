import Mathlib.Data.Nat.Bitwise
import Verif.Spec.Delete
import Verif.Spec.Memo
import Verif.Props.Memory

/-!
# Which leaves are neighbours after a deletion

Two neighbours of which none is deleted stay neighbours. A leaf whose neighbour is deleted, or that has none, gets another such leaf
as its neighbour or becomes the root of the bottom row.
-/

set_option linter.unusedSectionVars false

namespace Utreexo
namespace Pairs
open Spec

variable {α : Type}

/-- A list of pairs one after the other. -/
inductive Paired (P : α → α → Prop) : List α → Prop
  | nil : Paired P []
  | cons {a b : α} {l : List α} : P a b → Paired P l → Paired P (a :: b :: l)

theorem Paired.append {P : α → α → Prop} {l m : List α} (h : Paired P l) (h' : Paired P m) : Paired P (l ++ m) := by
  induction h with
  | nil => exact h'
  | cons hp _ ih => exact .cons hp ih

theorem Paired.even {P : α → α → Prop} {l : List α} (h : Paired P l) : l.length % 2 = 0 := by
  induction h with
  | nil => rfl
  | cons _ _ ih => simp only [List.length_cons]; omega

theorem Paired.get {P : α → α → Prop} {l : List α} (h : Paired P l) : ∀ k, 2 * k < l.length →
    ∃ a b, l[2 * k]? = some a ∧ l[2 * k + 1]? = some b ∧ P a b := by
  induction h with
  | nil => intro k hk; simp at hk
  | @cons a b l hp _ ih =>
    intro k hk
    cases k with
    | zero => exact ⟨a, b, rfl, rfl, hp⟩
    | succ k =>
      obtain ⟨c, d, h1, h2, h3⟩ := ih k (by simp only [List.length_cons] at hk; omega)
      refine ⟨c, d, ?_, ?_, h3⟩
      · rw [show 2 * (k + 1) = 2 * k + 1 + 1 from by omega, List.getElem?_cons_succ, List.getElem?_cons_succ, h1]
      · rw [show 2 * (k + 1) + 1 = 2 * k + 1 + 1 + 1 from by omega, List.getElem?_cons_succ, List.getElem?_cons_succ, h2]

/-! ## Rows above the bottom -/

/-- All trees of a row have a property. -/
def AllT (Q : List α → Prop) (row : List (Option (List α))) : Prop := ∀ t, some t ∈ row → Q t

/-- All trees of the pairs have a property. -/
def AllP (Q : List α → Prop) (ps : List (Option (List α) × Option (List α))) : Prop :=
  ∀ p ∈ ps, (∀ t, p.1 = some t → Q t) ∧ ∀ t, p.2 = some t → Q t

theorem siblings_all {Q : List α → Prop} : ∀ row : List (Option (List α)), AllT Q row →
    AllP Q (siblings row).1 ∧ ∀ t, (siblings row).2 = some t → Q t
  | [], _ => ⟨by intro p hp; simp [siblings] at hp, by intro t ht; simp [siblings] at ht⟩
  | [x], h => ⟨by intro p hp; simp [siblings] at hp, by intro t ht; exact h t (by simpa [siblings] using ht.symm)⟩
  | x :: y :: rest, h => by
    obtain ⟨h1, h2⟩ := siblings_all rest (fun t ht => h t (by simp [ht]))
    refine ⟨?_, h2⟩
    intro p hp
    rw [siblings] at hp
    rcases List.mem_cons.1 hp with rfl | hp
    · exact ⟨fun t ht => h t (by simp [← ht]), fun t ht => h t (by simp [← ht])⟩
    · exact h1 p hp

theorem takeNext_all {Q : List α → Prop} : ∀ (ps : List (Option (List α) × Option (List α))) (o : Option (List α)), AllP Q ps →
    (∀ t, o = some t → Q t) → ∀ r, takeNext ps o = some r → Q r.1 ∧ AllP Q r.2.1 ∧ ∀ t, r.2.2 = some t → Q t
  | [], none, _, _, r, hr => by simp [takeNext] at hr
  | [], some t, _, ho, r, hr => by
    simp only [takeNext, Option.some.injEq] at hr
    subst hr
    exact ⟨ho t rfl, by intro p hp; simp at hp, by simp⟩
  | (some t, none) :: ps, o, hp, ho, r, hr => by
    simp only [takeNext, Option.some.injEq] at hr
    subst hr
    refine ⟨(hp _ List.mem_cons_self).1 t rfl, ?_, ho⟩
    intro p hq
    rcases List.mem_cons.1 hq with rfl | hq
    · simp
    · exact hp p (by simp [hq])
  | (none, some t) :: ps, o, hp, ho, r, hr => by
    simp only [takeNext, Option.some.injEq] at hr
    subst hr
    refine ⟨(hp _ List.mem_cons_self).2 t rfl, ?_, ho⟩
    intro p hq
    rcases List.mem_cons.1 hq with rfl | hq
    · simp
    · exact hp p (by simp [hq])
  | (none, none) :: ps, o, hp, ho, r, hr => by
    simp only [takeNext, Option.map_eq_some_iff] at hr
    obtain ⟨r', h1, rfl⟩ := hr
    obtain ⟨a1, a2, a3⟩ := takeNext_all ps o (fun p hq => hp p (by simp [hq])) ho r' h1
    refine ⟨a1, ?_, a3⟩
    intro p hq
    rcases List.mem_cons.1 hq with rfl | hq
    · simp
    · exact a2 p hq
  | (some x, some y) :: ps, o, hp, ho, r, hr => by
    simp only [takeNext, Option.map_eq_some_iff] at hr
    obtain ⟨r', h1, rfl⟩ := hr
    obtain ⟨a1, a2, a3⟩ := takeNext_all ps o (fun p hq => hp p (by simp [hq])) ho r' h1
    refine ⟨a1, ?_, a3⟩
    intro p hq
    rcases List.mem_cons.1 hq with rfl | hq
    · exact hp _ (by simp)
    · exact a2 p hq

theorem joinRow_all {Q : List α → Prop} (hQ : ∀ l m, Q l → Q m → Q (l ++ m)) : ∀ (k : ℕ) (ps : List (Option (List α) × Option (List α)))
    (o : Option (List α)), AllP Q ps → (∀ t, o = some t → Q t) →
    AllT Q (joinRow k ps o).1 ∧ ∀ t, (joinRow k ps o).2 = some t → Q t := by
  intro k
  induction k with
  | zero => intro ps o _ ho; exact ⟨by intro t ht; simp [joinRow] at ht, by intro t ht; exact ho t (by simpa [joinRow] using ht)⟩
  | succ k ih =>
    intro ps o hp ho
    cases ps with
    | nil => exact ⟨by intro t ht; simp [joinRow] at ht, by intro t ht; exact ho t (by simpa [joinRow] using ht)⟩
    | cons p ps =>
      obtain ⟨x, y⟩ := p
      have hp0 := hp (x, y) (by simp)
      have hps : AllP Q ps := fun p hq => hp p (by simp [hq])
      have half : ∀ (x y : Option (List α)), (∀ t, x = some t → Q t) → (∀ t, y = some t → Q t) → (x = none ∨ y = none) → (x ≠ none ∨ y ≠ none) →
          joinRow (k + 1) ((x, y) :: ps) o = (match takeNext ps o with
            | some (t, ps', o') => (some (x.getD t ++ y.getD t) :: (joinRow k ps' o').1, (joinRow k ps' o').2)
            | none => (none :: (joinRow k ps o).1, x.or y)) →
          AllT Q (joinRow (k + 1) ((x, y) :: ps) o).1 ∧ ∀ t, (joinRow (k + 1) ((x, y) :: ps) o).2 = some t → Q t := by
        intro x y hx hy _ _ e
        rw [e]
        cases hn : takeNext ps o with
        | none =>
          obtain ⟨a1, a2⟩ := ih ps o hps ho
          refine ⟨?_, ?_⟩
          · intro t ht
            rcases List.mem_cons.1 ht with h | h
            · simp at h
            · exact a1 t h
          · intro t ht
            dsimp only at ht
            cases x with
            | none => exact hy t (by simpa using ht)
            | some a => exact hx t (by simpa using ht)
        | some r =>
          obtain ⟨t0, ps', o'⟩ := r
          obtain ⟨b1, b2, b3⟩ := takeNext_all ps o hps ho _ hn
          obtain ⟨a1, a2⟩ := ih ps' o' b2 b3
          refine ⟨?_, a2⟩
          intro t ht
          rcases List.mem_cons.1 ht with h | h
          · obtain rfl := Option.some.inj h
            apply hQ
            · cases x with
              | none => exact b1
              | some a => exact hx a rfl
            · cases y with
              | none => exact b1
              | some a => exact hy a rfl
          · exact a1 t h
      cases x with
      | none =>
        cases y with
        | none =>
          obtain ⟨a1, a2⟩ := ih ps o hps ho
          refine ⟨?_, ?_⟩
          · intro t ht
            rw [joinRow] at ht
            rcases List.mem_cons.1 ht with h | h
            · simp at h
            · exact a1 t h
          · intro t ht
            exact a2 t (by rw [joinRow] at ht; exact ht)
        | some b => exact half none (some b) hp0.1 hp0.2 (.inl rfl) (.inr (by simp)) rfl
      | some a =>
        cases y with
        | none => exact half (some a) none hp0.1 hp0.2 (.inr rfl) (.inl (by simp)) rfl
        | some b =>
          obtain ⟨a1, a2⟩ := ih ps o hps ho
          refine ⟨?_, ?_⟩
          · intro t ht
            rw [joinRow] at ht
            rcases List.mem_cons.1 ht with h | h
            · obtain rfl := Option.some.inj h
              exact hQ _ _ (hp0.1 a rfl) (hp0.2 b rfl)
            · exact a1 t h
          · intro t ht
            exact a2 t (by rw [joinRow] at ht; exact ht)

theorem settle_all {Q : List α → Prop} (hQ : ∀ l m, Q l → Q m → Q (l ++ m)) (h0 : Q []) : ∀ (k : ℕ) (row : List (Option (List α))),
    AllT Q row → Q (settle k row) := by
  intro k
  induction k with
  | zero => intro row _; exact h0
  | succ k ih =>
    intro row h
    rw [settle]
    obtain ⟨h1, h2⟩ := siblings_all row h
    obtain ⟨h3, h4⟩ := joinRow_all hQ _ _ _ h1 h2
    refine hQ _ _ (ih _ h3) ?_
    cases hr : (joinRow (siblings row).1.length (siblings row).1 (siblings row).2).2 with
    | none => exact h0
    | some t => exact h4 t hr

/-! ## The bottom row -/

/-- A pair of the bottom row: both leaves are there, or the one left is alone. -/
def GoodP (P : α → α → Prop) (A : α → Prop) (p : Option (List α) × Option (List α)) : Prop :=
  match p with
  | (some a, some b) => ∃ x y, a = [x] ∧ b = [y] ∧ P x y
  | (some a, none) => ∃ x, a = [x] ∧ A x
  | (none, some b) => ∃ y, b = [y] ∧ A y
  | (none, none) => True

theorem takeNext_good {P : α → α → Prop} {A : α → Prop} : ∀ (ps : List (Option (List α) × Option (List α))) (o : Option (List α)),
    (∀ p ∈ ps, GoodP P A p) → (∀ t, o = some t → ∃ x, t = [x] ∧ A x) → ∀ r, takeNext ps o = some r →
    (∃ x, r.1 = [x] ∧ A x) ∧ (∀ p ∈ r.2.1, GoodP P A p) ∧ ∀ t, r.2.2 = some t → ∃ x, t = [x] ∧ A x
  | [], none, _, _, r, hr => by simp [takeNext] at hr
  | [], some t, _, ho, r, hr => by
    simp only [takeNext, Option.some.injEq] at hr
    subst hr
    exact ⟨ho t rfl, by simp, by simp⟩
  | (some t, none) :: ps, o, hp, ho, r, hr => by
    simp only [takeNext, Option.some.injEq] at hr
    subst hr
    have h0 : GoodP P A _ := hp _ List.mem_cons_self
    refine ⟨h0, ?_, ho⟩
    intro p hq
    rcases List.mem_cons.1 hq with rfl | hq
    · exact trivial
    · exact hp p (by simp [hq])
  | (none, some t) :: ps, o, hp, ho, r, hr => by
    simp only [takeNext, Option.some.injEq] at hr
    subst hr
    have h0 : GoodP P A _ := hp _ List.mem_cons_self
    refine ⟨h0, ?_, ho⟩
    intro p hq
    rcases List.mem_cons.1 hq with rfl | hq
    · exact trivial
    · exact hp p (by simp [hq])
  | (none, none) :: ps, o, hp, ho, r, hr => by
    simp only [takeNext, Option.map_eq_some_iff] at hr
    obtain ⟨r', h1, rfl⟩ := hr
    obtain ⟨a1, a2, a3⟩ := takeNext_good ps o (fun p hq => hp p (by simp [hq])) ho r' h1
    refine ⟨a1, ?_, a3⟩
    intro p hq
    rcases List.mem_cons.1 hq with rfl | hq
    · exact trivial
    · exact a2 p hq
  | (some x, some y) :: ps, o, hp, ho, r, hr => by
    simp only [takeNext, Option.map_eq_some_iff] at hr
    obtain ⟨r', h1, rfl⟩ := hr
    obtain ⟨a1, a2, a3⟩ := takeNext_good ps o (fun p hq => hp p (by simp [hq])) ho r' h1
    refine ⟨a1, ?_, a3⟩
    intro p hq
    rcases List.mem_cons.1 hq with rfl | hq
    · exact hp _ (by simp)
    · exact a2 p hq

/-- The pairs of the bottom row after the deletion: old ones, or two leaves that had been alone. -/
theorem joinRow_good {P : α → α → Prop} {A : α → Prop} : ∀ (k : ℕ) (ps : List (Option (List α) × Option (List α)))
    (o : Option (List α)), (∀ p ∈ ps, GoodP P A p) → (∀ t, o = some t → ∃ x, t = [x] ∧ A x) →
    AllT (fun t => ∃ x y, t = [x, y] ∧ (P x y ∨ (A x ∧ A y))) (joinRow k ps o).1 ∧
      ∀ t, (joinRow k ps o).2 = some t → ∃ x, t = [x] ∧ A x := by
  intro k
  induction k with
  | zero => intro ps o _ ho; exact ⟨by intro t ht; simp [joinRow] at ht, by intro t ht; exact ho t (by simpa [joinRow] using ht)⟩
  | succ k ih =>
    intro ps o hp ho
    cases ps with
    | nil => exact ⟨by intro t ht; simp [joinRow] at ht, by intro t ht; exact ho t (by simpa [joinRow] using ht)⟩
    | cons p ps =>
      obtain ⟨x, y⟩ := p
      have hp0 := hp (x, y) (by simp)
      have hps : ∀ p ∈ ps, GoodP P A p := fun p hq => hp p (by simp [hq])
      have half : ∀ (x y : Option (List α)) (z : α), A z → ((x = some [z] ∧ y = none) ∨ (x = none ∧ y = some [z])) →
          joinRow (k + 1) ((x, y) :: ps) o = (match takeNext ps o with
            | some (t, ps', o') => (some (x.getD t ++ y.getD t) :: (joinRow k ps' o').1, (joinRow k ps' o').2)
            | none => (none :: (joinRow k ps o).1, x.or y)) →
          AllT (fun t => ∃ x y, t = [x, y] ∧ (P x y ∨ (A x ∧ A y))) (joinRow (k + 1) ((x, y) :: ps) o).1 ∧
            ∀ t, (joinRow (k + 1) ((x, y) :: ps) o).2 = some t → ∃ x, t = [x] ∧ A x := by
        intro x y z hz hxy e
        rw [e]
        cases hn : takeNext ps o with
        | none =>
          obtain ⟨a1, a2⟩ := ih ps o hps ho
          refine ⟨?_, ?_⟩
          · intro t ht
            rcases List.mem_cons.1 ht with h | h
            · simp at h
            · exact a1 t h
          · intro t ht
            dsimp only at ht
            rcases hxy with ⟨rfl, rfl⟩ | ⟨rfl, rfl⟩
            · exact ⟨z, by simpa using ht.symm, hz⟩
            · exact ⟨z, by simpa using ht.symm, hz⟩
        | some r =>
          obtain ⟨t0, ps', o'⟩ := r
          obtain ⟨⟨w, b0, bw⟩, b2, b3⟩ := takeNext_good ps o hps ho _ hn
          obtain ⟨a1, a2⟩ := ih ps' o' b2 b3
          refine ⟨?_, a2⟩
          intro t ht
          dsimp only at b0
          rcases List.mem_cons.1 ht with h | h
          · obtain rfl := Option.some.inj h
            rcases hxy with ⟨rfl, rfl⟩ | ⟨rfl, rfl⟩
            · exact ⟨z, w, by simp [b0], .inr ⟨hz, bw⟩⟩
            · exact ⟨w, z, by simp [b0], .inr ⟨bw, hz⟩⟩
          · exact a1 t h
      cases x with
      | none =>
        cases y with
        | none =>
          obtain ⟨a1, a2⟩ := ih ps o hps ho
          refine ⟨?_, ?_⟩
          · intro t ht
            rw [joinRow] at ht
            rcases List.mem_cons.1 ht with h | h
            · simp at h
            · exact a1 t h
          · intro t ht
            exact a2 t (by rw [joinRow] at ht; exact ht)
        | some b =>
          obtain ⟨z, rfl, hz⟩ := hp0
          exact half none (some [z]) z hz (.inr ⟨rfl, rfl⟩) rfl
      | some a =>
        cases y with
        | none =>
          obtain ⟨z, rfl, hz⟩ := hp0
          exact half (some [z]) none z hz (.inl ⟨rfl, rfl⟩) rfl
        | some b =>
          obtain ⟨v, w, rfl, rfl, hvw⟩ := hp0
          obtain ⟨a1, a2⟩ := ih ps o hps ho
          refine ⟨?_, ?_⟩
          · intro t ht
            rw [joinRow] at ht
            rcases List.mem_cons.1 ht with h | h
            · obtain rfl := Option.some.inj h
              exact ⟨v, w, rfl, .inl hvw⟩
            · exact a1 t h
          · intro t ht
            exact a2 t (by rw [joinRow] at ht; exact ht)

/-- The leaf at `i` has no neighbour, or its neighbour is deleted. -/
def Alone (L : List α) (D : List ℕ) (x : α) : Prop := ∃ i, L[i]? = some x ∧ i ∉ D ∧ (i ^^^ 1 ∈ D ∨ L.length ≤ i ^^^ 1)

/-- Two neighbours. -/
def Next (L : List α) (D : List ℕ) (x y : α) : Prop := ∃ i, L[2 * i]? = some x ∧ L[2 * i + 1]? = some y ∧ 2 * i ∉ D ∧ 2 * i + 1 ∉ D

theorem siblings_good (D : List ℕ) (L : List α) : ∀ (l : List α) (o : ℕ), (∀ j, l[j]? = L[2 * o + j]?) →
    (∀ p ∈ (siblings ((l.zipIdx (2 * o)).map fun e => if D.contains e.2 then none else some [e.1])).1, GoodP (Next L D) (Alone L D) p) ∧
    ∀ t, (siblings ((l.zipIdx (2 * o)).map fun e => if D.contains e.2 then none else some [e.1])).2 = some t → ∃ x, t = [x] ∧ Alone L D x
  | [], o, _ => ⟨by intro p hp; simp [siblings] at hp, by intro t ht; simp [siblings] at ht⟩
  | [x], o, h => by
    refine ⟨by intro p hp; simp [siblings] at hp, ?_⟩
    intro t ht
    simp only [List.zipIdx_cons, List.zipIdx_nil, List.map_cons, List.map_nil, siblings] at ht
    split at ht
    · simp at ht
    · rename_i hc
      refine ⟨x, (Option.some.inj ht).symm, 2 * o, ?_, by simpa using hc, .inr ?_⟩
      · have := h 0
        simpa using this.symm
      · have := h 1
        have h1 : L[2 * o + 1]? = none := by rw [← this]; rfl
        rw [List.getElem?_eq_none_iff] at h1
        rw [xor_one_even o]
        exact h1
  | x :: y :: l, o, h => by
    obtain ⟨h1, h2⟩ := siblings_good D L l (o + 1) (fun j => by
      have := h (j + 2)
      rw [List.getElem?_cons_succ, List.getElem?_cons_succ] at this
      rw [this]
      congr 1
      omega)
    have hx : L[2 * o]? = some x := by simpa using (h 0).symm
    have hy : L[2 * o + 1]? = some y := by simpa using (h 1).symm
    simp only [List.zipIdx_cons, List.map_cons, siblings]
    rw [show 2 * o + 1 + 1 = 2 * (o + 1) from by omega]
    refine ⟨?_, h2⟩
    intro p hp
    rcases List.mem_cons.1 hp with rfl | hp
    · by_cases c1 : 2 * o ∈ D
      · by_cases c2 : 2 * o + 1 ∈ D
        · simp only [List.contains_iff_mem, c1, c2, if_true]
          exact trivial
        · simp only [List.contains_iff_mem, c1, c2, if_true, if_false]
          exact ⟨y, rfl, 2 * o + 1, hy, c2, .inl (by rw [xor_one_odd o]; exact c1)⟩
      · by_cases c2 : 2 * o + 1 ∈ D
        · simp only [List.contains_iff_mem, c1, c2, if_true, if_false]
          exact ⟨x, rfl, 2 * o, hx, c1, .inl (by rw [xor_one_even o]; exact c2)⟩
        · simp only [List.contains_iff_mem, c1, c2, if_false]
          exact ⟨x, y, rfl, rfl, o, hx, hy, c1, c2⟩
    · exact h1 p hp

/-- The leaves after a deletion: pairs of neighbours, and perhaps a leaf alone at the end. -/
theorem delete_paired (L : List α) (D : List ℕ) : ∃ l r, deleteLeaves L D = l ++ r ∧
    Paired (fun x y => Next L D x y ∨ (Alone L D x ∧ Alone L D y)) l ∧ (r = [] ∨ ∃ z, r = [z] ∧ Alone L D z) := by
  unfold deleteLeaves
  cases hL : L.length with
  | zero => exact ⟨[], [], rfl, .nil, .inl rfl⟩
  | succ k =>
    rw [settle]
    obtain ⟨h1, h2⟩ := siblings_good D L L 0 (fun j => by rw [Nat.mul_zero, Nat.zero_add])
    rw [Nat.mul_zero] at h1 h2
    obtain ⟨h3, h4⟩ := joinRow_good (siblings (L.zipIdx.map fun e => if D.contains e.2 then none else some [e.1])).1.length _ _ h1 h2
    refine ⟨_, _, rfl, settle_all (fun _ _ => Paired.append) .nil k _ ?_, ?_⟩
    · intro t ht
      obtain ⟨x, y, rfl, h⟩ := h3 t ht
      exact .cons h .nil
    · cases hr : (joinRow (siblings (L.zipIdx.map fun e => if D.contains e.2 then none else some [e.1])).1.length
          (siblings (L.zipIdx.map fun e => if D.contains e.2 then none else some [e.1])).1
          (siblings (L.zipIdx.map fun e => if D.contains e.2 then none else some [e.1])).2).2 with
      | none => exact .inl rfl
      | some t =>
        obtain ⟨z, rfl, hz⟩ := h4 t hr
        exact .inr ⟨z, rfl, hz⟩

section
variable [DecidableEq α] [HashOps α]
open Pol

theorem Next.beside {L : List α} (hnd : L.Nodup) {D : List ℕ} {x y : α} (h : Next L D x y) : beside L x = some y ∧ beside L y = some x := by
  obtain ⟨i, h1, h2, -⟩ := h
  rw [beside_eq hnd h1, beside_eq hnd h2, xor_one_even, xor_one_odd]
  exact ⟨h2, h1⟩

/-- The neighbours after a deletion. -/
theorem beside_delete {L : List α} (hnd : L.Nodup) {D : List ℕ} (hM : (deleteLeaves L D).Nodup) {x : α} (hx : x ∈ deleteLeaves L D) :
    (∃ g, beside (deleteLeaves L D) x = some g ∧ beside L x = some g) ∨
      (Alone L D x ∧ (beside (deleteLeaves L D) x = none → (deleteLeaves L D).length % 2 = 1) ∧
        ∀ g, beside (deleteLeaves L D) x = some g → Alone L D g) := by
  obtain ⟨l, r, e, hl, hr⟩ := delete_paired L D
  rw [e] at hM hx ⊢
  obtain ⟨i, hi⟩ := List.mem_iff_getElem?.1 hx
  have hev := hl.even
  by_cases hil : i < l.length
  · obtain ⟨a, b, h1, h2, h3⟩ := hl.get (i / 2) (by omega)
    have h1' : (l ++ r)[2 * (i / 2)]? = some a := by
      rw [List.getElem?_append_left (by omega)]; exact h1
    have h2' : (l ++ r)[2 * (i / 2) + 1]? = some b := by
      rw [List.getElem?_append_left (by omega)]; exact h2
    have b1 := beside_eq hM h1'
    have b2 := beside_eq hM h2'
    rw [xor_one_even, h2'] at b1
    rw [xor_one_odd, h1'] at b2
    have hxab : (x = a ∧ beside (l ++ r) x = some b) ∨ (x = b ∧ beside (l ++ r) x = some a) := by
      rcases Nat.mod_two_eq_zero_or_one i with h0 | h0
      · rw [show i = 2 * (i / 2) from by omega, h1'] at hi
        obtain rfl := Option.some.inj hi
        exact .inl ⟨rfl, b1⟩
      · rw [show i = 2 * (i / 2) + 1 from by omega, h2'] at hi
        obtain rfl := Option.some.inj hi
        exact .inr ⟨rfl, b2⟩
    rcases h3 with h3 | ⟨ha, hb⟩
    · obtain ⟨n1, n2⟩ := h3.beside hnd
      left
      rcases hxab with ⟨rfl, hb⟩ | ⟨rfl, hb⟩
      · exact ⟨_, hb, n1⟩
      · exact ⟨_, hb, n2⟩
    · right
      rcases hxab with ⟨rfl, hb'⟩ | ⟨rfl, hb'⟩
      · exact ⟨ha, by rw [hb']; simp, by rw [hb']; intro g hg; exact Option.some.inj hg ▸ hb⟩
      · exact ⟨hb, by rw [hb']; simp, by rw [hb']; intro g hg; exact Option.some.inj hg ▸ ha⟩
  · rcases hr with rfl | ⟨z, rfl, hz⟩
    · rw [List.append_nil, List.getElem?_eq_none (by omega)] at hi
      simp at hi
    · have hi' : i = l.length := by
        have := (List.getElem?_eq_some_iff.1 hi).1
        rw [List.length_append, List.length_singleton] at this
        omega
      subst hi'
      rw [List.getElem?_append_right (by omega), Nat.sub_self, List.getElem?_cons_zero] at hi
      obtain rfl := Option.some.inj hi
      right
      refine ⟨hz, fun _ => by rw [List.length_append, List.length_singleton]; omega, ?_⟩
      intro g hg
      have hz' : (l ++ [z])[l.length]? = some z := by
        rw [List.getElem?_append_right (by omega), Nat.sub_self]; rfl
      rw [beside_eq hM hz', show l.length = 2 * (l.length / 2) from by omega, xor_one_even] at hg
      rw [List.getElem?_eq_none (by rw [List.length_append, List.length_singleton]; omega)] at hg
      simp at hg

end

/-! ## One deletion from an odd number of leaves -/

theorem full_join : ∀ (k : ℕ) (ts : List (List α)), ts.length = 2 * k ∨ ts.length = 2 * k + 1 →
    ∃ (ps : List (Option (List α) × Option (List α))) (us : List (List α)), siblings (ts.map some) = (ps, if ts.length % 2 = 1 then ts.getLast? else none) ∧ ps.length = k ∧
      (∀ t, takeNext ps (some t) = some (t, ps, none)) ∧
      (∀ o, joinRow ps.length ps o = (us.map some, o)) ∧ us.length = k ∧
      us.flatten ++ (if ts.length % 2 = 1 then ts.getLast?.getD [] else []) = ts.flatten := by
  intro k
  induction k with
  | zero =>
    intro ts h
    match ts, h with
    | [], _ => exact ⟨[], [], rfl, rfl, fun _ => rfl, fun _ => rfl, rfl, rfl⟩
    | [x], _ => exact ⟨[], [], rfl, rfl, fun _ => rfl, fun _ => rfl, rfl, by simp⟩
    | _ :: _ :: _, h => simp only [List.length_cons] at h; omega
  | succ k ih =>
    intro ts h
    match ts, h with
    | [], h => simp at h
    | [_], h => simp at h; omega
    | x :: y :: ts, h =>
      obtain ⟨ps, us, h1, h2, h3, h4, h5, h6⟩ := ih ts (by simp only [List.length_cons] at h; omega)
      refine ⟨(some x, some y) :: ps, (x ++ y) :: us, ?_, by simp [h2], ?_, ?_, by simp [h5], ?_⟩
      · simp only [List.map_cons, siblings, h1, List.length_cons]
        by_cases hc : ts.length % 2 = 1
        · rw [if_pos hc, if_pos (by omega)]
          cases ts with
          | nil => simp at hc
          | cons z ts => rw [List.getLast?_cons_cons, List.getLast?_cons_cons]
        · rw [if_neg hc, if_neg (by omega)]
      · intro t
        simp only [takeNext, h3, Option.map_some]
      · intro o
        rw [List.length_cons, joinRow, h4]
        rfl
      · rw [List.flatten_cons, List.flatten_cons, List.flatten_cons, ← h6]
        simp only [List.length_cons, List.append_assoc]
        by_cases hc : ts.length % 2 = 1
        · rw [if_pos (show (ts.length + 1 + 1) % 2 = 1 by omega), if_pos hc]
          cases ts with
          | nil => simp at hc
          | cons z ts => rw [List.getLast?_cons_cons, List.getLast?_cons_cons]
        · rw [if_neg hc, if_neg (by omega)]

theorem settle_full : ∀ (k : ℕ) (ts : List (List α)), ts.length ≤ k → settle k (ts.map some) = ts.flatten := by
  intro k
  induction k with
  | zero =>
    intro ts h
    obtain rfl : ts = [] := List.length_eq_zero_iff.1 (by omega)
    rfl
  | succ k ih =>
    intro ts h
    obtain ⟨ps, us, h1, h2, -, h4, h5, h6⟩ := full_join (ts.length / 2) ts (by omega)
    rw [settle, h1]
    dsimp only
    rw [h4]
    dsimp only
    rw [ih us (by omega), ← h6]
    congr 1
    split <;> rfl

theorem hole_join : ∀ (k : ℕ) (L : List α) (t : ℕ), L.length = 2 * k + 1 → t < 2 * k → ∀ z, L.getLast? = some z →
    ∃ (ps : List (Option (List α) × Option (List α))) (us : List (List α)) (o : Option (List α)), siblings ((L.map fun x => some [x]).set t none) = (ps, o) ∧
      joinRow ps.length ps o = (us.map some, none) ∧ us.length = k ∧ us.flatten = (L.set t z).dropLast := by
  intro k
  induction k with
  | zero => intro L t _ ht; omega
  | succ k ih =>
    intro L t hL ht z hz
    match L, hL with
    | [], h => simp at h
    | [_], h => simp at h
    | x :: y :: L, hL =>
      have hL' : L.length = 2 * k + 1 := by simp only [List.length_cons] at hL; omega
      have hne : L ≠ [] := by rintro rfl; simp at hL'
      have hz' : L.getLast? = some z := by
        rw [← hz]
        cases L with
        | nil => exact absurd rfl hne
        | cons w L => rw [List.getLast?_cons_cons, List.getLast?_cons_cons]
      have hmap : (L.map fun x => some [x]) = (L.map fun x => [x]).map some := by rw [List.map_map]; rfl
      have hfl : (L.map fun x => [x]).flatten = L := by
        induction L with
        | nil => rfl
        | cons w L _ => simp [List.flatten_cons, List.map_cons, ← List.flatMap_def]
      obtain ⟨ps, us, h1, h2, h3, h4, h5, h6⟩ := full_join k (L.map fun x => [x]) (by rw [List.length_map]; omega)
      have hodd : (L.map fun x => [x]).length % 2 = 1 := by rw [List.length_map]; omega
      have hlast : (L.map fun x => [x]).getLast? = some [z] := by
        rw [List.getLast?_map, hz']; rfl
      rw [if_pos hodd, hlast] at h1 h6
      rw [hfl] at h6
      have hdrop : us.flatten = L.dropLast := by
        have := congrArg List.dropLast h6
        rw [Option.getD_some, List.dropLast_concat] at this
        exact this
      cases t with
      | zero =>
        refine ⟨(none, some [y]) :: ps, [z, y] :: us, some [z], ?_, ?_, by simp [h5], ?_⟩
        · simp only [List.map_cons, List.set_cons_zero, siblings]
          rw [hmap, h1]
        · rw [List.length_cons, joinRow]
          · rw [h3]
            dsimp only
            rw [h4]
            rfl
          · simp
          · simp
        · rw [List.flatten_cons, hdrop, List.set_cons_zero]
          cases L with
          | nil => exact absurd rfl hne
          | cons w L => rfl
      | succ t =>
        cases t with
        | zero =>
          refine ⟨(some [x], none) :: ps, [x, z] :: us, some [z], ?_, ?_, by simp [h5], ?_⟩
          · simp only [List.map_cons, List.set_cons_zero, List.set_cons_succ, siblings]
            rw [hmap, h1]
          · rw [List.length_cons, joinRow]
            · rw [h3]
              dsimp only
              rw [h4]
              rfl
            · simp
            · simp
          · rw [List.flatten_cons, hdrop, List.set_cons_succ, List.set_cons_zero]
            cases L with
            | nil => exact absurd rfl hne
            | cons w L => rfl
        | succ t =>
          obtain ⟨ps, us, o, g1, g2, g3, g4⟩ := ih L t hL' (by omega) z hz'
          refine ⟨(some [x], some [y]) :: ps, [x, y] :: us, o, ?_, ?_, by simp [g3], ?_⟩
          · simp only [List.map_cons, List.set_cons_succ, siblings]
            rw [g1]
          · rw [List.length_cons, joinRow, g2]
            rfl
          · rw [List.flatten_cons, g4, List.set_cons_succ, List.set_cons_succ]
            have : L.set t z ≠ [] := by
              intro h
              rw [List.set_eq_nil_iff] at h
              exact hne h
            cases hs : L.set t z with
            | nil => exact absurd hs this
            | cons w l => rfl

/-- One of an odd number of leaves, not the last, is deleted: the last one takes its place. -/
theorem delete_one {L : List α} {t : ℕ} {z : α} (h : L.length % 2 = 1) (ht : t + 1 < L.length) (hz : L.getLast? = some z) :
    deleteLeaves L [t] = (L.set t z).dropLast := by
  unfold deleteLeaves
  have hrow : (L.zipIdx.map fun e => if [t].contains e.2 then none else some [e.1]) = (L.map fun x => some [x]).set t none := by
    apply List.ext_getElem?
    intro i
    rw [List.getElem?_map, List.getElem?_zipIdx, List.getElem?_set, List.length_map, List.getElem?_map]
    by_cases hi : i < L.length
    · rw [List.getElem?_eq_getElem hi]
      by_cases hit : t = i
      · subst hit
        simp [hi]
      · simp [hit, Ne.symm hit]
    · rw [List.getElem?_eq_none (by omega), if_neg (by omega)]
      rfl
  rw [hrow]
  obtain ⟨ps, us, o, h1, h2, h3, h4⟩ := hole_join (L.length / 2) L t (by omega) (by omega) z hz
  cases hk : L.length with
  | zero => omega
  | succ k =>
    rw [settle, h1]
    dsimp only
    rw [h2]
    dsimp only
    rw [settle_full k us (by omega), h4]
    simp

end Pairs
end Utreexo
