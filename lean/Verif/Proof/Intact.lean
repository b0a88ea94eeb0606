import Verif.Proof.Local

/-!
# Subtrees without a deleted leaf are moved as a whole
-/

set_option linter.unusedSectionVars false

namespace Utreexo
open Spec

namespace Settle

variable {α : Type}

/-- The tree `a` is one of the row. -/
def In {T : Type} (a : T) (ps : List (Option T × Option T)) (o : Option T) : Prop :=
  o = some a ∨ ∃ p ∈ ps, p.1 = some a ∨ p.2 = some a

theorem in_cons {T : Type} {a : T} {p : Option T × Option T} {ps : List (Option T × Option T)} {o : Option T} :
    In a (p :: ps) o ↔ p.1 = some a ∨ p.2 = some a ∨ In a ps o := by
  unfold In
  constructor
  · rintro (h | ⟨q, hq, h⟩)
    · exact .inr (.inr (.inl h))
    · rcases List.mem_cons.1 hq with rfl | hq
      · rcases h with h | h
        · exact .inl h
        · exact .inr (.inl h)
      · exact .inr (.inr (.inr ⟨q, hq, h⟩))
  · rintro (h | h | h | ⟨q, hq, h⟩)
    · exact .inr ⟨p, List.mem_cons_self, .inl h⟩
    · exact .inr ⟨p, List.mem_cons_self, .inr h⟩
    · exact .inl h
    · exact .inr ⟨q, List.mem_cons_of_mem _ hq, h⟩

theorem in_siblings {T : Type} {a : T} : ∀ (row : List (Option T)), In a (siblings row).1 (siblings row).2 ↔ some a ∈ row
  | [] => by simp [In, siblings]
  | [x] => by
    simp only [In, siblings, List.mem_singleton]
    constructor
    · rintro (h | ⟨p, hp, -⟩)
      · exact h.symm
      · simp at hp
    · exact fun h => .inl h.symm
  | x :: y :: row => by
    rw [siblings, in_cons, in_siblings row]
    simp only [List.mem_cons, eq_comm]

/-- Taking out the next tree without sibling. -/
theorem takeNext_in {T : Type} : ∀ (ps : List (Option T × Option T)) (o : Option T) (t : T) (ps' : List (Option T × Option T)) (o' : Option T),
    takeNext ps o = some (t, ps', o') → ∀ a, In a ps o ↔ a = t ∨ In a ps' o'
  | [], none, t, ps', o', h, a => by simp [takeNext] at h
  | [], some _, t, ps', o', h, a => by
    simp only [takeNext, Option.some.injEq, Prod.mk.injEq] at h
    obtain ⟨rfl, rfl, rfl⟩ := h
    simp [In, eq_comm]
  | (some _, none) :: ps, o, t, ps', o', h, a => by
    simp only [takeNext, Option.some.injEq, Prod.mk.injEq] at h
    obtain ⟨rfl, rfl, rfl⟩ := h
    simp [in_cons, eq_comm]
  | (none, some _) :: ps, o, t, ps', o', h, a => by
    simp only [takeNext, Option.some.injEq, Prod.mk.injEq] at h
    obtain ⟨rfl, rfl, rfl⟩ := h
    simp [in_cons, eq_comm]
  | (some x, some y) :: ps, o, t, ps', o', h, a => by
    simp only [takeNext, Option.map_eq_some_iff, Prod.mk.injEq] at h
    obtain ⟨⟨t2, q, o2⟩, e, rfl, rfl, rfl⟩ := h
    rw [in_cons, in_cons, takeNext_in ps o t2 q o2 e]
    tauto
  | (none, none) :: ps, o, t, ps', o', h, a => by
    simp only [takeNext, Option.map_eq_some_iff, Prod.mk.injEq] at h
    obtain ⟨⟨t2, q, o2⟩, e, rfl, rfl, rfl⟩ := h
    rw [in_cons, in_cons, takeNext_in ps o t2 q o2 e]
    tauto

/-- Pairs are left alone. -/
theorem takeNext_pair {T : Type} : ∀ (ps : List (Option T × Option T)) (o : Option T) (t : T) (ps' : List (Option T × Option T)) (o' : Option T),
    takeNext ps o = some (t, ps', o') → ∀ (i : ℕ) (a b : T), ps[i]? = some (some a, some b) → ps'[i]? = some (some a, some b)
  | [], none, t, ps', o', h, i, a, b, hi => by simp at hi
  | [], some _, t, ps', o', h, i, a, b, hi => by simp at hi
  | (some _, none) :: ps, o, t, ps', o', h, i, a, b, hi => by
    simp only [takeNext, Option.some.injEq, Prod.mk.injEq] at h
    obtain ⟨rfl, rfl, rfl⟩ := h
    cases i with
    | zero => simp at hi
    | succ i => simpa using hi
  | (none, some _) :: ps, o, t, ps', o', h, i, a, b, hi => by
    simp only [takeNext, Option.some.injEq, Prod.mk.injEq] at h
    obtain ⟨rfl, rfl, rfl⟩ := h
    cases i with
    | zero => simp at hi
    | succ i => simpa using hi
  | (some x, some y) :: ps, o, t, ps', o', h, i, a, b, hi => by
    simp only [takeNext, Option.map_eq_some_iff, Prod.mk.injEq] at h
    obtain ⟨⟨t2, q, o2⟩, e, rfl, rfl, rfl⟩ := h
    cases i with
    | zero => simpa using hi
    | succ i => simpa using takeNext_pair ps o t2 q o2 e i a b (by simpa using hi)
  | (none, none) :: ps, o, t, ps', o', h, i, a, b, hi => by
    simp only [takeNext, Option.map_eq_some_iff, Prod.mk.injEq] at h
    obtain ⟨⟨t2, q, o2⟩, e, rfl, rfl, rfl⟩ := h
    cases i with
    | zero => simp at hi
    | succ i => simpa using takeNext_pair ps o t2 q o2 e i a b (by simpa using hi)

theorem takeNext_none_odd {T : Type} : ∀ (ps : List (Option T × Option T)) (o : Option T), takeNext ps o = none → o = none
  | [], none, _ => rfl
  | [], some _, h => by simp [takeNext] at h
  | (some _, none) :: ps, o, h => by simp [takeNext] at h
  | (none, some _) :: ps, o, h => by simp [takeNext] at h
  | (some _, some _) :: ps, o, h => takeNext_none_odd ps o (by simpa [takeNext] using h)
  | (none, none) :: ps, o, h => takeNext_none_odd ps o (by simpa [takeNext] using h)

theorem joinRow_one (k : ℕ) (x y : Option (List α)) (ps : List (Option (List α) × Option (List α))) (o : Option (List α))
    (h : x.isSome ≠ y.isSome) : joinRow (k + 1) ((x, y) :: ps) o = match takeNext ps o with
      | some (t, ps', o') => (some (x.getD t ++ y.getD t) :: (joinRow k ps' o').1, (joinRow k ps' o').2)
      | none => (none :: (joinRow k ps o).1, x.or y) := by
  rcases x with _ | x <;> rcases y with _ | y
  · simp at h
  · rfl
  · rfl
  · simp at h

theorem joinRow_none : ∀ (k : ℕ) (ps : List (Option (List α) × Option (List α))) (o : Option (List α)), takeNext ps o = none →
    (joinRow k ps o).2 = none
  | 0, ps, o, h => by
    have := takeNext_none_odd ps o h
    cases ps <;> simp [joinRow, this]
  | k + 1, [], o, h => by
    have := takeNext_none_odd [] o h
    simp [joinRow, this]
  | k + 1, (some _, none) :: ps, o, h => by simp [takeNext] at h
  | k + 1, (none, some _) :: ps, o, h => by simp [takeNext] at h
  | k + 1, (some a, some b) :: ps, o, h => joinRow_none k ps o (by simpa [takeNext] using h)
  | k + 1, (none, none) :: ps, o, h => joinRow_none k ps o (by simpa [takeNext] using h)

/-- A pair is joined where it is. -/
theorem joinRow_pair : ∀ (k : ℕ) (ps : List (Option (List α) × Option (List α))) (o : Option (List α)), ps.length = k →
    ∀ (i : ℕ) (a b : List α), ps[i]? = some (some a, some b) → (joinRow k ps o).1[i]? = some (some (a ++ b))
  | 0, ps, o, h, i, a, b, hi => by
    obtain rfl : ps = [] := List.length_eq_zero_iff.1 h
    simp at hi
  | k + 1, [], o, h, i, a, b, hi => by simp at hi
  | k + 1, (x, y) :: ps, o, h, i, a, b, hi => by
    have hl : ps.length = k := by simpa using h
    have key : ∀ (x y : Option (List α)), x.isSome ≠ y.isSome → ((x, y) :: ps)[i]? = some (some a, some b) →
        (joinRow (k + 1) ((x, y) :: ps) o).1[i]? = some (some (a ++ b)) := by
      intro x y hxy hi
      cases i with
      | zero =>
        simp only [List.getElem?_cons_zero, Option.some.injEq, Prod.mk.injEq] at hi
        rw [hi.1, hi.2] at hxy
        simp at hxy
      | succ i =>
        rw [joinRow_one k x y ps o hxy]
        rw [List.getElem?_cons_succ] at hi
        cases e : takeNext ps o with
        | none => simpa using joinRow_pair k ps o hl i a b hi
        | some r =>
          obtain ⟨t, ps', o'⟩ := r
          simpa using joinRow_pair k ps' o' ((takeNext_length ps o t ps' o' e).trans hl) i a b (takeNext_pair ps o t ps' o' e i a b hi)
    rcases x with _ | x <;> rcases y with _ | y
    · cases i with
      | zero => simp at hi
      | succ i => simpa [joinRow] using joinRow_pair k ps o hl i a b (by simpa using hi)
    · exact key none (some y) (by simp) hi
    · exact key (some x) none (by simp) hi
    · cases i with
      | zero =>
        simp only [List.getElem?_cons_zero, Option.some.injEq, Prod.mk.injEq] at hi
        simp [joinRow, hi.1, hi.2]
      | succ i => simpa [joinRow] using joinRow_pair k ps o hl i a b (by simpa using hi)

/-- All trees of the row have `n` leaves. -/
def AllOf (n : ℕ) (ps : List (Option (List α) × Option (List α))) (o : Option (List α)) : Prop := ∀ a, In a ps o → a.length = n

theorem joinRow_sized : ∀ (k n : ℕ) (ps : List (Option (List α) × Option (List α))) (o : Option (List α)), ps.length = k → AllOf n ps o →
    (∀ a, some a ∈ (joinRow k ps o).1 → a.length = 2 * n) ∧ ∀ a, (joinRow k ps o).2 = some a → a.length = n
  | 0, n, ps, o, h, hs => by
    obtain rfl : ps = [] := List.length_eq_zero_iff.1 h
    exact ⟨by simp [joinRow], fun a ha => hs a (.inl ha)⟩
  | k + 1, n, [], o, h, hs => by simp at h
  | k + 1, n, (x, y) :: ps, o, h, hs => by
    have hl : ps.length = k := by simpa using h
    have hs' : AllOf n ps o := fun a ha => hs a (in_cons.2 (.inr (.inr ha)))
    have hx : ∀ a, x = some a → a.length = n := fun a ha => hs a (in_cons.2 (.inl ha))
    have hy : ∀ a, y = some a → a.length = n := fun a ha => hs a (in_cons.2 (.inr (.inl ha)))
    obtain ⟨i1, i2⟩ := joinRow_sized k n ps o hl hs'
    have key : ∀ (x y : Option (List α)), x.isSome ≠ y.isSome → (∀ a, x = some a → a.length = n) → (∀ a, y = some a → a.length = n) →
        (∀ a, some a ∈ (joinRow (k + 1) ((x, y) :: ps) o).1 → a.length = 2 * n) ∧
          ∀ a, (joinRow (k + 1) ((x, y) :: ps) o).2 = some a → a.length = n := by
      intro x y hxy hx hy
      rw [joinRow_one k x y ps o hxy]
      cases e : takeNext ps o with
      | none =>
        dsimp only
        refine ⟨fun a ha => i1 a (by simpa using ha), fun a ha => ?_⟩
        rcases x with _ | x
        · exact hy a (by simpa using ha)
        · exact hx a (by simpa using ha)
      | some r =>
        obtain ⟨t, ps', o'⟩ := r
        have ht := takeNext_in ps o t ps' o' e
        have hn : t.length = n := hs' t ((ht t).2 (.inl rfl))
        obtain ⟨j1, j2⟩ := joinRow_sized k n ps' o' ((takeNext_length ps o t ps' o' e).trans hl) fun a ha => hs' a ((ht a).2 (.inr ha))
        dsimp only
        refine ⟨fun a ha => ?_, j2⟩
        rcases List.mem_cons.1 ha with ha | ha
        · obtain rfl := Option.some.inj ha
          have e1 : (x.getD t).length = n := by
            cases x with
            | none => exact hn
            | some x => exact hx x rfl
          have e2 : (y.getD t).length = n := by
            cases y with
            | none => exact hn
            | some y => exact hy y rfl
          rw [List.length_append, e1, e2]
          omega
        · exact j1 a ha
    rcases x with _ | x <;> rcases y with _ | y
    · exact ⟨fun a ha => i1 a (by simpa [joinRow] using ha), i2⟩
    · exact key none (some y) (by simp) hx hy
    · exact key (some x) none (by simp) hx hy
    · refine ⟨fun a ha => ?_, i2⟩
      rcases List.mem_cons.1 ha with ha | ha
      · obtain rfl := Option.some.inj ha
        rw [List.length_append, hx x rfl, hy y rfl]
        omega
      · exact i1 a ha

/-- No tree is lost: it is part of a tree of the next row, left or right, or the root of this one. -/
theorem joinRow_in : ∀ (k n : ℕ) (ps : List (Option (List α) × Option (List α))) (o : Option (List α)), ps.length = k → AllOf n ps o →
    ∀ a, In a ps o → (joinRow k ps o).2 = some a ∨
      ∃ b : List α, b.length = n ∧ (some (a ++ b) ∈ (joinRow k ps o).1 ∨ some (b ++ a) ∈ (joinRow k ps o).1)
  | 0, n, ps, o, h, hs, a, ha => by
    obtain rfl : ps = [] := List.length_eq_zero_iff.1 h
    rcases ha with ha | ⟨p, hp, -⟩
    · exact .inl ha
    · simp at hp
  | k + 1, n, [], o, h, hs, a, ha => by simp at h
  | k + 1, n, (x, y) :: ps, o, h, hs, a, ha => by
    have hl : ps.length = k := by simpa using h
    have hs' : AllOf n ps o := fun a ha => hs a (in_cons.2 (.inr (.inr ha)))
    have hx : ∀ a, x = some a → a.length = n := fun a ha => hs a (in_cons.2 (.inl ha))
    have hy : ∀ a, y = some a → a.length = n := fun a ha => hs a (in_cons.2 (.inr (.inl ha)))
    have ih := joinRow_in k n ps o hl hs'
    have key : ∀ (x y : Option (List α)), x.isSome ≠ y.isSome → (∀ a, x = some a → a.length = n) → (∀ a, y = some a → a.length = n) →
        In a ((x, y) :: ps) o → (joinRow (k + 1) ((x, y) :: ps) o).2 = some a ∨
          ∃ b : List α, b.length = n ∧ (some (a ++ b) ∈ (joinRow (k + 1) ((x, y) :: ps) o).1 ∨
            some (b ++ a) ∈ (joinRow (k + 1) ((x, y) :: ps) o).1) := by
      intro x y hxy hx hy ha
      rw [joinRow_one k x y ps o hxy]
      rw [in_cons] at ha
      cases e : takeNext ps o with
      | none =>
        dsimp only
        rcases ha with ha | ha | ha
        · dsimp only at ha
          left; rw [ha]; rfl
        · dsimp only at ha
          left
          rcases x with _ | x
          · rw [ha]; rfl
          · rw [ha] at hxy; simp at hxy
        · rcases ih a ha with h1 | ⟨b, hb, h1 | h1⟩
          · rw [joinRow_none k ps o e] at h1; simp at h1
          · exact .inr ⟨b, hb, .inl (List.mem_cons_of_mem _ h1)⟩
          · exact .inr ⟨b, hb, .inr (List.mem_cons_of_mem _ h1)⟩
      | some r =>
        obtain ⟨t, ps', o'⟩ := r
        have ht := takeNext_in ps o t ps' o' e
        have hn : t.length = n := hs' t ((ht t).2 (.inl rfl))
        dsimp only
        rcases ha with ha | ha | ha
        · dsimp only at ha
          rcases y with _ | y
          · exact .inr ⟨t, hn, .inl (by rw [ha]; exact List.mem_cons_self)⟩
          · rw [ha] at hxy; simp at hxy
        · dsimp only at ha
          rcases x with _ | x
          · exact .inr ⟨t, hn, .inr (by rw [ha]; exact List.mem_cons_self)⟩
          · rw [ha] at hxy; simp at hxy
        · rcases (ht a).1 ha with rfl | ha
          · rcases x with _ | x <;> rcases y with _ | y
            · simp at hxy
            · exact .inr ⟨y, hy y rfl, .inl List.mem_cons_self⟩
            · exact .inr ⟨x, hx x rfl, .inr List.mem_cons_self⟩
            · simp at hxy
          · rcases joinRow_in k n ps' o' ((takeNext_length ps o t ps' o' e).trans hl) (fun a ha => hs' a ((ht a).2 (.inr ha))) a ha with
              h1 | ⟨b, hb, h1 | h1⟩
            · exact .inl h1
            · exact .inr ⟨b, hb, .inl (List.mem_cons_of_mem _ h1)⟩
            · exact .inr ⟨b, hb, .inr (List.mem_cons_of_mem _ h1)⟩
    have up : In a ps o → (joinRow k ps o).2 = some a ∨ ∃ b : List α, b.length = n ∧
        (∀ c, some (a ++ b) ∈ c :: (joinRow k ps o).1 ∨ some (b ++ a) ∈ c :: (joinRow k ps o).1) := by
      intro ha
      rcases ih a ha with h1 | ⟨b, hb, h1 | h1⟩
      · exact .inl h1
      · exact .inr ⟨b, hb, fun c => .inl (List.mem_cons_of_mem _ h1)⟩
      · exact .inr ⟨b, hb, fun c => .inr (List.mem_cons_of_mem _ h1)⟩
    rcases x with _ | x <;> rcases y with _ | y
    · rw [in_cons] at ha
      rcases ha with ha | ha | ha
      · simp at ha
      · simp at ha
      · rcases up ha with h1 | ⟨b, hb, h1⟩
        · exact .inl h1
        · exact .inr ⟨b, hb, h1 none⟩
    · exact key none (some y) (by simp) hx hy ha
    · exact key (some x) none (by simp) hx hy ha
    · rw [in_cons] at ha
      rcases ha with ha | ha | ha
      · dsimp only at ha
        obtain rfl := Option.some.inj ha
        exact .inr ⟨y, hy y rfl, .inl List.mem_cons_self⟩
      · dsimp only at ha
        obtain rfl := Option.some.inj ha
        exact .inr ⟨x, hx x rfl, .inr List.mem_cons_self⟩
      · rcases up ha with h1 | ⟨b, hb, h1⟩
        · exact .inl h1
        · exact .inr ⟨b, hb, h1 (some (x ++ y))⟩

/-! ## Rows -/

theorem allOf {n : ℕ} {row : List (Option (List α))} (h : ∀ a, some a ∈ row → a.length = n) : AllOf n (siblings row).1 (siblings row).2 :=
  fun a ha => h a ((in_siblings row).1 ha)

theorem J_sized {n : ℕ} {row : List (Option (List α))} (h : ∀ a, some a ∈ row → a.length = n) :
    (∀ a, some a ∈ (J row).1 → a.length = 2 * n) ∧ ∀ a, (J row).2 = some a → a.length = n :=
  joinRow_sized _ n _ _ rfl (allOf h)

theorem J_in {n : ℕ} {row : List (Option (List α))} (h : ∀ a, some a ∈ row → a.length = n) {a : List α} (ha : some a ∈ row) :
    (J row).2 = some a ∨ ∃ b : List α, b.length = n ∧ (some (a ++ b) ∈ (J row).1 ∨ some (b ++ a) ∈ (J row).1) :=
  joinRow_in _ n _ _ rfl (allOf h) a ((in_siblings row).2 ha)

theorem siblings_get {T : Type} : ∀ (row : List (Option T)) (i : ℕ) (a b : T), row[2 * i]? = some (some a) → row[2 * i + 1]? = some (some b) →
    (siblings row).1[i]? = some (some a, some b)
  | [], i, a, b, h, _ => by simp at h
  | [x], i, a, b, _, h' => by simp at h'
  | x :: y :: row, 0, a, b, h, h' => by
    simp only [Nat.mul_zero, List.getElem?_cons_zero, Option.some.injEq, Nat.zero_add, List.getElem?_cons_succ] at h h'
    simp [siblings, h, h']
  | x :: y :: row, i + 1, a, b, h, h' => by
    rw [siblings]
    simp only [List.getElem?_cons_succ]
    refine siblings_get row i a b ?_ ?_
    · rw [show 2 * (i + 1) = 2 * i + 1 + 1 by omega] at h
      simpa using h
    · rw [show 2 * (i + 1) + 1 = 2 * i + 1 + 1 + 1 by omega] at h'
      simpa using h'

theorem J_get {row : List (Option (List α))} {i : ℕ} {a b : List α} (h : row[2 * i]? = some (some a)) (h' : row[2 * i + 1]? = some (some b)) :
    (J row).1[i]? = some (some (a ++ b)) := joinRow_pair _ _ _ rfl i a b (siblings_get row i a b h h')

theorem settle_dvd : ∀ (k n : ℕ) (row : List (Option (List α))), (∀ a, some a ∈ row → a.length = n) → n ∣ (settle k row).length
  | 0, n, row, _ => ⟨0, rfl⟩
  | k + 1, n, row, h => by
    obtain ⟨h1, h2⟩ := J_sized h
    rw [settle_succ, List.length_append]
    refine Nat.dvd_add ((Nat.dvd_mul_left n 2).trans (settle_dvd k (2 * n) _ h1)) ?_
    cases e : (J row).2 with
    | none => simp
    | some a => simp [h2 a e]

/-- A tree of the row is found in the result, at a multiple of its size. -/
theorem settle_keeps : ∀ (k n : ℕ) (row : List (Option (List α))), (∀ a, some a ∈ row → a.length = n) → row.length < 2 ^ k →
    ∀ a, some a ∈ row → ∃ X Y, settle k row = X ++ (a ++ Y) ∧ n ∣ X.length
  | 0, n, row, _, hl, a, ha => by
    obtain rfl : row = [] := List.length_eq_zero_iff.1 (by omega)
    simp at ha
  | k + 1, n, row, h, hl, a, ha => by
    obtain ⟨h1, h2⟩ := J_sized h
    have hlen : (J row).1.length < 2 ^ k := by rw [J_length]; rw [pow_succ] at hl; omega
    rw [settle_succ]
    rcases J_in h ha with e | ⟨b, hb, e | e⟩
    · exact ⟨settle k (J row).1, [], by rw [e]; simp, (Nat.dvd_mul_left n 2).trans (settle_dvd k (2 * n) _ h1)⟩
    · obtain ⟨X, Y, e1, e2⟩ := settle_keeps k (2 * n) _ h1 hlen _ e
      exact ⟨X, b ++ (Y ++ (J row).2.getD []), by rw [e1]; simp, (Nat.dvd_mul_left n 2).trans e2⟩
    · obtain ⟨X, Y, e1, e2⟩ := settle_keeps k (2 * n) _ h1 hlen _ e
      refine ⟨X ++ b, Y ++ (J row).2.getD [], by rw [e1]; simp, ?_⟩
      rw [List.length_append, hb]
      exact Nat.dvd_add ((Nat.dvd_mul_left n 2).trans e2) (Nat.dvd_refl n)

theorem range_twice (g : ℕ → List α) : ∀ n : ℕ, ((List.range (2 * n)).map g).flatten = ((List.range n).map fun x => g (2 * x) ++ g (2 * x + 1)).flatten
  | 0 => rfl
  | n + 1 => by
    rw [show 2 * (n + 1) = 2 * n + 1 + 1 by omega, List.range_succ, List.range_succ, List.range_succ]
    simp [range_twice g n]

/-- So are `2 ^ r` neighbours of which none is missing. -/
theorem settle_block : ∀ (r k n i : ℕ) (row : List (Option (List α))) (g : ℕ → List α), (∀ a, some a ∈ row → a.length = n) → row.length < 2 ^ k →
    (∀ x < 2 ^ r, row[i * 2 ^ r + x]? = some (some (g x))) →
    ∃ X Y, settle k row = X ++ (((List.range (2 ^ r)).map g).flatten ++ Y) ∧ n * 2 ^ r ∣ X.length
  | 0, k, n, i, row, g, h, hl, hg => by
    have := hg 0 (by simp)
    obtain ⟨X, Y, e1, e2⟩ := settle_keeps k n row h hl (g 0) (List.mem_of_getElem? this)
    exact ⟨X, Y, by simpa using e1, by simpa using e2⟩
  | r + 1, 0, n, i, row, g, h, hl, hg => by
    obtain rfl : row = [] := List.length_eq_zero_iff.1 (by omega)
    have := hg 0 (by positivity)
    simp at this
  | r + 1, k + 1, n, i, row, g, h, hl, hg => by
    obtain ⟨h1, h2⟩ := J_sized h
    have hlen : (J row).1.length < 2 ^ k := by rw [J_length]; rw [pow_succ] at hl; omega
    obtain ⟨X, Y, e1, e2⟩ := settle_block r k (2 * n) i (J row).1 (fun x => g (2 * x) ++ g (2 * x + 1)) h1 hlen (by
      intro x hx
      have a1 := hg (2 * x) (by rw [pow_succ]; omega)
      have a2 := hg (2 * x + 1) (by rw [pow_succ]; omega)
      refine J_get ?_ ?_
      · rw [← a1]; congr 1; rw [pow_succ]; ring
      · rw [← a2]; congr 1; rw [pow_succ]; ring)
    rw [settle_succ, e1]
    refine ⟨X, Y ++ (J row).2.getD [], ?_, by rw [pow_succ]; convert e2 using 1; ring⟩
    rw [show 2 ^ (r + 1) = 2 * 2 ^ r by rw [pow_succ]; ring, range_twice]
    simp

theorem range_take (L : List α) (c : ℕ) : ∀ n : ℕ, ((List.range n).map fun x => (L[c + x]?).toList).flatten = (L.drop c).take n
  | 0 => rfl
  | n + 1 => by
    rw [List.range_succ, List.map_append, List.flatten_append, range_take L c n, List.take_add_one, List.getElem?_drop]
    simp

/-- The leaves of a subtree without a deleted leaf stay together in their order, at a multiple of their number. -/
theorem delete_block (L : List α) (D : List ℕ) (r i : ℕ) (hi : (i + 1) * 2 ^ r ≤ L.length) (hD : ∀ x ∈ D, x / 2 ^ r ≠ i) :
    ∃ X Y, deleteLeaves L D = X ++ ((L.drop (i * 2 ^ r)).take (2 ^ r) ++ Y) ∧ 2 ^ r ∣ X.length := by
  unfold deleteLeaves
  obtain ⟨X, Y, e1, e2⟩ := settle_block r L.length 1 i (L.zipIdx.map fun e => if D.contains e.2 then none else some [e.1])
    (fun x => (L[i * 2 ^ r + x]?).toList) (by
      intro a ha
      obtain ⟨e, -, he⟩ := List.mem_map.1 ha
      split at he
      · simp at he
      · rw [← Option.some.inj he]; rfl) (by rw [List.length_map, List.length_zipIdx]; exact Nat.lt_two_pow_self) (by
      intro x hx
      have hlt : i * 2 ^ r + x < L.length := by rw [Nat.add_mul] at hi; omega
      rw [List.getElem?_map, List.getElem?_zipIdx, List.getElem?_eq_getElem hlt]
      simp only [Option.map_some, Nat.zero_add]
      rw [if_neg]
      · rfl
      · intro hc
        refine hD _ (by simpa using hc) ?_
        rw [Nat.mul_comm i, Nat.mul_add_div (by positivity), Nat.div_eq_of_lt hx, Nat.add_zero])
  rw [range_take] at e1
  exact ⟨X, Y, e1, by simpa using e2⟩

end Settle

end Utreexo
