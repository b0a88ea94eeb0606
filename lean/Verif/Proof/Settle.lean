import Verif.Proof.Plan
import Verif.Spec.Delete

/-!
# The permutation of the remove transformation orders the leaves like `Spec.deleteLeaves`
-/

namespace Utreexo
open Spec Equiv

namespace Settle

variable {α : Type} {T : Type}

/-- Set one slot. -/
def put (u : ℕ → Option T) (w : ℕ) (v : Option T) : ℕ → Option T := fun y => if y = w then v else u y

theorem put_eq (u : ℕ → Option T) (w : ℕ) (v : Option T) : put u w v w = v := by simp [put]

theorem put_ne (u : ℕ → Option T) {w y : ℕ} (v : Option T) (h : y ≠ w) : put u w v y = u y := by simp [put, h]

/-- `k` pairs of slots from pair `j` on. -/
def pairsOf (u : ℕ → Option T) (j k : ℕ) : List (Option T × Option T) :=
  (List.range' j k).map fun i => (u (2 * i), u (2 * i + 1))

theorem pairsOf_succ (u : ℕ → Option T) (j k : ℕ) :
    pairsOf u j (k + 1) = (u (2 * j), u (2 * j + 1)) :: pairsOf u (j + 1) k := by
  simp [pairsOf, List.range'_succ]

theorem pairsOf_congr {u u' : ℕ → Option T} {j k : ℕ} (h : ∀ y, 2 * j ≤ y → u y = u' y) : pairsOf u j k = pairsOf u' j k := by
  apply List.map_congr_left
  intro i hi
  have := (List.mem_range'_1.1 hi).1
  rw [h _ (by omega), h _ (by omega)]

theorem pairsOf_length (u : ℕ → Option T) (j k : ℕ) : (pairsOf u j k).length = k := by simp [pairsOf]

theorem siblings_even (u : ℕ → Option T) : ∀ k j, siblings ((List.range' (2 * j) (2 * k)).map u) = (pairsOf u j k, none) := by
  intro k
  induction k with
  | zero => intro j; rfl
  | succ k ih =>
    intro j
    have := ih (j + 1)
    rw [show 2 * (k + 1) = 2 * k + 1 + 1 by ring, List.range'_succ, List.range'_succ, List.map_cons, List.map_cons, siblings]
    rw [show 2 * j + 1 + 1 = 2 * (j + 1) by ring, this, pairsOf_succ]

theorem siblings_odd (u : ℕ → Option T) : ∀ k j,
    siblings ((List.range' (2 * j) (2 * k + 1)).map u) = (pairsOf u j k, u (2 * (j + k))) := by
  intro k
  induction k with
  | zero => intro j; simp [siblings, pairsOf]
  | succ k ih =>
    intro j
    have := ih (j + 1)
    rw [show 2 * (k + 1) + 1 = 2 * k + 1 + 1 + 1 by ring, List.range'_succ, List.range'_succ, List.map_cons, List.map_cons,
      siblings]
    rw [show 2 * j + 1 + 1 = 2 * (j + 1) by ring, this, pairsOf_succ, show j + 1 + k = j + (k + 1) by ring]

/-- The deleted slots with a sibling that is not deleted. -/
def holes (u : ℕ → Option T) : ℕ → ℕ → List ℕ
  | _, 0 => []
  | j, k + 1 =>
    match u (2 * j), u (2 * j + 1) with
    | some _, none => (2 * j + 1) :: holes u (j + 1) k
    | none, some _ => (2 * j) :: holes u (j + 1) k
    | _, _ => holes u (j + 1) k

theorem holes_congr {u u' : ℕ → Option T} : ∀ {k j : ℕ}, (∀ y, 2 * j ≤ y → u y = u' y) → holes u j k = holes u' j k := by
  intro k
  induction k with
  | zero => intro j _; rfl
  | succ k ih =>
    intro j h
    simp only [holes]
    rw [h _ (by omega), h _ (by omega), ih fun y hy => h y (by omega)]

theorem sib_even (j : ℕ) : (2 * j) ^^^ 1 = 2 * j + 1 := by rw [xor_one_cases, if_pos (by omega)]
theorem sib_odd (j : ℕ) : (2 * j + 1) ^^^ 1 = 2 * j := by rw [xor_one_cases, if_neg (by omega)]; omega

theorem mem_holes {u : ℕ → Option T} : ∀ {k j w : ℕ}, w ∈ holes u j k ↔ (j ≤ w / 2 ∧ w / 2 < j + k) ∧ u w = none ∧ (u (w ^^^ 1)).isSome := by
  intro k
  induction k with
  | zero => intro j w; constructor
            · intro h; simp [holes] at h
            · rintro ⟨h, -⟩; omega
  | succ k ih =>
    intro j w
    have hw : (j ≤ w / 2 ∧ w / 2 < j + (k + 1)) ↔ (w = 2 * j ∨ w = 2 * j + 1) ∨ (j + 1 ≤ w / 2 ∧ w / 2 < j + 1 + k) := by omega
    rw [hw]
    have hI := ih (j := j + 1) (w := w)
    have hne : (j + 1 ≤ w / 2 ∧ w / 2 < j + 1 + k) → w ≠ 2 * j ∧ w ≠ 2 * j + 1 := by omega
    simp only [holes]
    cases h0 : u (2 * j) with
    | none =>
      cases h1 : u (2 * j + 1) with
      | none =>
        simp only [hI]
        constructor
        · rintro ⟨a, b⟩; exact ⟨.inr a, b⟩
        · rintro ⟨(rfl | rfl) | a, b, c⟩
          · rw [sib_even, h1] at c; simp at c
          · rw [sib_odd, h0] at c; simp at c
          · exact ⟨a, b, c⟩
      | some b =>
        simp only [List.mem_cons, hI]
        constructor
        · rintro (rfl | ⟨a, b⟩)
          · exact ⟨.inl (.inl rfl), h0, by rw [sib_even, h1]; rfl⟩
          · exact ⟨.inr a, b⟩
        · rintro ⟨(rfl | rfl) | a, b, c⟩
          · exact .inl rfl
          · rw [h1] at b; simp at b
          · exact .inr ⟨a, b, c⟩
    | some a =>
      cases h1 : u (2 * j + 1) with
      | none =>
        simp only [List.mem_cons, hI]
        constructor
        · rintro (rfl | ⟨a, b⟩)
          · exact ⟨.inl (.inr rfl), h1, by rw [sib_odd, h0]; rfl⟩
          · exact ⟨.inr a, b⟩
        · rintro ⟨(rfl | rfl) | a, b, c⟩
          · rw [h0] at b; simp at b
          · exact .inl rfl
          · exact .inr ⟨a, b, c⟩
      | some b =>
        simp only [hI]
        constructor
        · rintro ⟨a, b⟩; exact ⟨.inr a, b⟩
        · rintro ⟨(rfl | rfl) | a, b, c⟩
          · rw [h0] at b; simp at b
          · rw [h1] at b; simp at b
          · exact ⟨a, b, c⟩

theorem holes_half {u : ℕ → Option T} : ∀ (k j : ℕ), (holes u j k).Pairwise fun a b => a / 2 < b / 2 := by
  intro k
  induction k with
  | zero => intro j; simp [holes]
  | succ k ih =>
    intro j
    have hI := ih (j + 1)
    have hb : ∀ w ∈ holes u (j + 1) k, j < w / 2 := fun w hw => (mem_holes.1 hw).1.1
    simp only [holes]
    split
    · exact List.pairwise_cons.2 ⟨fun w hw => by have := hb w hw; omega, hI⟩
    · exact List.pairwise_cons.2 ⟨fun w hw => by have := hb w hw; omega, hI⟩
    · exact hI

theorem takeNext_nil {u : ℕ → Option T} : ∀ (k j : ℕ) (o : Option T), holes u j k = [] →
    takeNext (pairsOf u j k) o = o.map fun t => (t, pairsOf u j k, none) := by
  intro k
  induction k with
  | zero => intro j o _; cases o <;> rfl
  | succ k ih =>
    intro j o h
    rw [pairsOf_succ]
    simp only [holes] at h
    cases h0 : u (2 * j) with
    | none =>
      cases h1 : u (2 * j + 1) with
      | none =>
        rw [h0, h1] at h
        rw [takeNext, ih (j + 1) o h]
        · cases o <;> rfl
        · simp
        · simp
      | some b => rw [h0, h1] at h; simp at h
    | some a =>
      cases h1 : u (2 * j + 1) with
      | none => rw [h0, h1] at h; simp at h
      | some b =>
        rw [h0, h1] at h
        rw [takeNext, ih (j + 1) o h]
        · cases o <;> rfl
        · simp
        · simp

theorem takeNext_cons {u : ℕ → Option T} : ∀ (k j : ℕ) (o : Option T) (w : ℕ) (ws : List ℕ) (t : T), holes u j k = w :: ws →
    u (w ^^^ 1) = some t → takeNext (pairsOf u j k) o = some (t, pairsOf (put u (w ^^^ 1) none) j k, o) := by
  intro k
  induction k with
  | zero => intro j o w ws t h; simp [holes] at h
  | succ k ih =>
    intro j o w ws t h ht
    have hw := mem_holes.1 (h ▸ List.mem_cons_self : w ∈ holes u j (k + 1))
    rw [pairsOf_succ, pairsOf_succ]
    simp only [holes] at h
    cases h0 : u (2 * j) with
    | none =>
      cases h1 : u (2 * j + 1) with
      | none =>
        rw [h0, h1] at h
        simp only at h
        have hm := (mem_holes.1 (h ▸ List.mem_cons_self : w ∈ holes u (j + 1) k)).1.1
        have hd := sb_div w
        rw [takeNext, ih (j + 1) o w ws t h ht, put_ne, put_ne, h0, h1]
        · rfl
        · omega
        · omega
        · simp
        · simp
      | some b =>
        rw [h0, h1] at h
        simp only [List.cons.injEq] at h
        obtain ⟨rfl, -⟩ := h
        rw [sib_even, h1] at ht
        cases ht
        rw [takeNext, sib_even, put_eq, put_ne _ _ (by omega), h0]
        rw [pairsOf_congr (u' := put u (2 * j + 1) none) (fun y hy => (put_ne u none (by omega)).symm)]
    | some a =>
      cases h1 : u (2 * j + 1) with
      | none =>
        rw [h0, h1] at h
        simp only [List.cons.injEq] at h
        obtain ⟨rfl, -⟩ := h
        rw [sib_odd, h0] at ht
        cases ht
        rw [takeNext, sib_odd, put_eq, put_ne _ _ (by omega), h1]
        rw [pairsOf_congr (u' := put u (2 * j) none) (fun y hy => (put_ne u none (by omega)).symm)]
      | some b =>
        rw [h0, h1] at h
        simp only at h
        have hm := (mem_holes.1 (h ▸ List.mem_cons_self : w ∈ holes u (j + 1) k)).1.1
        have hd := sb_div w
        rw [takeNext, ih (j + 1) o w ws t h ht, put_ne, put_ne, h0, h1]
        · rfl
        · omega
        · omega
        · simp
        · simp

theorem holes_put {u : ℕ → Option T} : ∀ (k j w : ℕ) (ws : List ℕ), holes u j k = w :: ws →
    holes (put u (w ^^^ 1) none) j k = ws := by
  intro k
  induction k with
  | zero => intro j w ws h; simp [holes] at h
  | succ k ih =>
    intro j w ws h
    have hw := mem_holes.1 (h ▸ List.mem_cons_self : w ∈ holes u j (k + 1))
    have hd := sb_div w
    simp only [holes] at h ⊢
    cases h0 : u (2 * j) with
    | none =>
      cases h1 : u (2 * j + 1) with
      | none =>
        rw [h0, h1] at h
        simp only at h
        have hm := (mem_holes.1 (h ▸ List.mem_cons_self : w ∈ holes u (j + 1) k)).1.1
        rw [put_ne _ _ (by omega), put_ne _ _ (by omega), h0, h1]
        exact ih (j + 1) w ws h
      | some b =>
        rw [h0, h1] at h
        simp only [List.cons.injEq] at h
        obtain ⟨rfl, h⟩ := h
        rw [sib_even, put_eq, put_ne _ _ (by omega), h0]
        simp only
        rw [← h]
        exact holes_congr fun y hy => put_ne u none (by omega)
    | some a =>
      cases h1 : u (2 * j + 1) with
      | none =>
        rw [h0, h1] at h
        simp only [List.cons.injEq] at h
        obtain ⟨rfl, h⟩ := h
        rw [sib_odd, put_eq, put_ne _ _ (by omega), h1]
        simp only
        rw [← h]
        exact holes_congr fun y hy => put_ne u none (by omega)
      | some b =>
        rw [h0, h1] at h
        simp only at h
        have hm := (mem_holes.1 (h ▸ List.mem_cons_self : w ∈ holes u (j + 1) k)).1.1
        rw [put_ne _ _ (by omega), put_ne _ _ (by omega), h0, h1]
        exact ih (j + 1) w ws h

/-- The slots after moving trees to the holes. -/
def moved : List ℕ → Option T → (ℕ → Option T) → ℕ → Option T
  | w :: w2 :: ws, o, u => moved ws o (put (put u w (u (w2 ^^^ 1))) (w2 ^^^ 1) none)
  | [w], o, u => put u w o
  | [], _, u => u

theorem moved_congr {o : Option T} : ∀ (n : ℕ) (ws : List ℕ) (u u' : ℕ → Option T) (P : ℕ → Prop), ws.length ≤ n → (∀ y, P y → u y = u' y) →
    (∀ w ∈ ws, P w ∧ P (w ^^^ 1)) → ∀ y, P y → moved ws o u y = moved ws o u' y := by
  intro n
  induction n with
  | zero =>
    intro ws u u' P hl h hw y hy
    rw [List.length_eq_zero_iff.1 (by omega : ws.length = 0)]
    exact h y hy
  | succ n ih =>
    intro ws u u' P hl h hw y hy
    match ws, hl, hw with
    | [], _, _ => exact h y hy
    | [w], _, _ =>
      simp only [moved, put]
      split
      · rfl
      · exact h y hy
    | w :: w2 :: ws, hl, hw =>
      simp only [moved]
      apply ih _ _ _ P (by simp at hl; omega) _ (fun x hx => hw x (by simp [hx])) y hy
      intro z hz
      simp only [put]
      split
      · rfl
      · split
        · exact h _ (hw w2 (by simp)).2
        · exact h z hz

theorem moved_fix {o : Option T} : ∀ (n : ℕ) (ws : List ℕ) (u : ℕ → Option T) (y : ℕ), ws.length ≤ n →
    (∀ p ∈ idxPairs ws, p.1 ≠ y ∧ p.2 ≠ y) → y ∉ oddLast ws → moved ws o u y = u y := by
  intro n
  induction n with
  | zero =>
    intro ws u y hl _ _
    rw [List.length_eq_zero_iff.1 (by omega : ws.length = 0)]
    rfl
  | succ n ih =>
    intro ws u y hl h1 h2
    match ws, hl, h1, h2 with
    | [], _, _, _ => rfl
    | [w], _, _, h2 =>
      simp only [moved]
      exact put_ne _ _ (by simpa [oddLast] using h2)
    | w :: w2 :: ws, hl, h1, h2 =>
      simp only [moved]
      rw [oddLast_cons] at h2
      have h3 := h1 (w2 ^^^ 1, w) (by simp [idxPairs])
      rw [ih ws _ y (by simp at hl; omega) (fun p hp => h1 p (by simp [idxPairs, hp])) h2, put_ne _ _ (Ne.symm h3.1),
        put_ne _ _ (Ne.symm h3.2)]

theorem idxPairs_mem : ∀ (n : ℕ) (ws : List ℕ) (p : ℕ × ℕ), ws.length ≤ n → p ∈ idxPairs ws → p.1 ^^^ 1 ∈ ws ∧ p.2 ∈ ws := by
  intro n
  induction n with
  | zero =>
    intro ws p hl hp
    rw [List.length_eq_zero_iff.1 (by omega : ws.length = 0)] at hp
    simp [idxPairs] at hp
  | succ n ih =>
    intro ws p hl hp
    match ws, hl, hp with
    | [], _, hp => simp [idxPairs] at hp
    | [w], _, hp => simp [idxPairs] at hp
    | w :: w2 :: ws, hl, hp =>
      simp only [idxPairs, List.mem_cons] at hp
      rcases hp with rfl | hp
      · simp [sb_sb]
      · have := ih ws p (by simp at hl; omega) hp
        simp [this.1, this.2]

theorem oddLast_mem {ws : List ℕ} {w : ℕ} (h : w ∈ oddLast ws) : w ∈ ws := by
  unfold oddLast at h
  split at h
  · simp at h
  · rename_i hl
    rw [List.mem_singleton] at h
    subst h
    cases ws with
    | nil => simp at hl
    | cons a l =>
      rw [List.getLastD_cons]
      exact List.getLast?_mem? a l
where
  List.getLast?_mem? (a : ℕ) (l : List ℕ) : l.getLastD a ∈ a :: l := by
    induction l generalizing a with
    | nil => simp
    | cons b l ih => rw [List.getLastD_cons]; exact List.mem_cons_of_mem _ (ih b)

theorem moved_pair {o : Option T} : ∀ (n : ℕ) (ws : List ℕ) (u : ℕ → Option T) (p : ℕ × ℕ), ws.length ≤ n →
    ws.Pairwise (fun a b => a / 2 < b / 2) → p ∈ idxPairs ws → moved ws o u p.2 = u p.1 ∧ moved ws o u p.1 = none := by
  intro n
  induction n with
  | zero =>
    intro ws u p hl _ hp
    rw [List.length_eq_zero_iff.1 (by omega : ws.length = 0)] at hp
    simp [idxPairs] at hp
  | succ n ih =>
    intro ws u p hl hs hp
    match ws, hl, hs, hp with
    | [], _, _, hp => simp [idxPairs] at hp
    | [w], _, _, hp => simp [idxPairs] at hp
    | w :: w2 :: ws, hl, hs, hp =>
      simp only [idxPairs, List.mem_cons] at hp
      obtain ⟨h1, h2⟩ := List.pairwise_cons.1 hs
      obtain ⟨h3, h4⟩ := List.pairwise_cons.1 h2
      have h5 := h1 w2 (by simp)
      have hd2 := sb_div w2
      simp only [moved]
      have hlt : ∀ x, x / 2 ≤ w2 / 2 → (∀ q ∈ idxPairs ws, q.1 ≠ x ∧ q.2 ≠ x) ∧ x ∉ oddLast ws := by
        intro x hx
        constructor
        · intro q hq
          obtain ⟨m1, m2⟩ := idxPairs_mem _ ws q (Nat.le_refl _) hq
          have e1 := h3 _ m1
          have e2 := h3 _ m2
          have := sb_div q.1
          constructor
          · rintro rfl; omega
          · rintro rfl; omega
        · intro hc
          have := h3 _ (oddLast_mem hc)
          omega
      rcases hp with rfl | hp
      · obtain ⟨a1, a2⟩ := hlt w (by omega)
        obtain ⟨b1, b2⟩ := hlt (w2 ^^^ 1) (by omega)
        constructor
        · show moved ws o _ w = u (w2 ^^^ 1)
          rw [moved_fix _ ws _ w (Nat.le_refl _) a1 a2, put_ne _ _ (by omega), put_eq]
        · show moved ws o _ (w2 ^^^ 1) = none
          rw [moved_fix _ ws _ _ (Nat.le_refl _) b1 b2, put_eq]
      · obtain ⟨e1, e2⟩ := ih ws (put (put u w (u (w2 ^^^ 1))) (w2 ^^^ 1) none) p (by simp at hl; omega) h4 hp
        refine ⟨?_, e2⟩
        rw [e1]
        obtain ⟨m1, -⟩ := idxPairs_mem _ ws p (Nat.le_refl _) hp
        have e3 := h3 _ m1
        have := sb_div p.1
        rw [put_ne _ _ (by omega), put_ne _ _ (by omega)]

theorem moved_last {o : Option T} : ∀ (n : ℕ) (ws : List ℕ) (u : ℕ → Option T) (w : ℕ), ws.length ≤ n → w ∈ oddLast ws →
    moved ws o u w = o := by
  intro n
  induction n with
  | zero =>
    intro ws u w hl h
    rw [List.length_eq_zero_iff.1 (by omega : ws.length = 0)] at h
    simp [oddLast] at h
  | succ n ih =>
    intro ws u w hl h
    match ws, hl, h with
    | [], _, h => simp [oddLast] at h
    | [v], _, h =>
      have : w = v := by simpa [oddLast] using h
      subst this
      exact put_eq _ _ _
    | a :: b :: ws, hl, h =>
      rw [oddLast_cons] at h
      exact ih ws _ w (by simp at hl; omega) h

/-- Two slots joined. -/
def join (v : ℕ → Option (List α)) (i : ℕ) : Option (List α) :=
  match v (2 * i), v (2 * i + 1) with
  | some a, some b => some (a ++ b)
  | _, _ => none

theorem join_congr {v v' : ℕ → Option (List α)} {i : ℕ} (h0 : v (2 * i) = v' (2 * i)) (h1 : v (2 * i + 1) = v' (2 * i + 1)) :
    join v i = join v' i := by unfold join; rw [h0, h1]

/-- The root of the row. -/
def rootOf (ws : List ℕ) (o : Option T) (u : ℕ → Option T) : Option T :=
  if ws.length % 2 = 0 then o else if o.isSome then none else u (ws.getLastD 0 ^^^ 1)

theorem joinRow_eq : ∀ (k j : ℕ) (o : Option (List α)) (u : ℕ → Option (List α)),
    joinRow k (pairsOf u j k) o =
      ((List.range' j k).map (join (moved (holes u j k) o u)), rootOf (holes u j k) o u) := by
  intro k
  induction k with
  | zero => intro j o u; rfl
  | succ k ih =>
    intro j o u
    have hb : ∀ w ∈ holes u (j + 1) k, j < w / 2 := fun w hw => (mem_holes.1 hw).1.1
    have hfix : ∀ (v : ℕ → Option (List α)) (l : List ℕ) (y : ℕ), (∀ w ∈ l, j < w / 2) → y / 2 ≤ j → moved l o v y = v y := by
      intro v l y hl hy
      apply moved_fix _ l v y (Nat.le_refl _)
      · intro p hp
        obtain ⟨m1, m2⟩ := idxPairs_mem _ l p (Nat.le_refl _) hp
        have e1 := hl _ m1
        have e2 := hl _ m2
        have := sb_div p.1
        constructor
        · rintro rfl; omega
        · rintro rfl; omega
      · intro hc
        have := hl _ (oddLast_mem hc)
        omega
    -- a pair with a hole
    have half : ∀ (w : ℕ) (a : List α), (w = 2 * j ∨ w = 2 * j + 1) → u w = none → u (w ^^^ 1) = some a →
        (match takeNext (pairsOf u (j + 1) k) o with
          | some (t, ps', o') => (some ((u (2 * j)).getD t ++ (u (2 * j + 1)).getD t) :: (joinRow k ps' o').1, (joinRow k ps' o').2)
          | none => (none :: (joinRow k (pairsOf u (j + 1) k) o).1, (u (2 * j)).or (u (2 * j + 1)))) =
        (join (moved (w :: holes u (j + 1) k) o u) j ::
          (List.range' (j + 1) k).map (join (moved (w :: holes u (j + 1) k) o u)), rootOf (w :: holes u (j + 1) k) o u) := by
      intro w a hwj hw ha
      have hd := sb_div w
      have hx := xor_one_cases w
      cases hws : holes u (j + 1) k with
      | nil =>
        rw [takeNext_nil k (j + 1) o hws]
        have hI := ih (j + 1) none u
        rw [hws] at hI
        cases o with
        | none =>
          simp only [Option.map_none]
          rw [hI]
          have e : moved [w] none u = u := by
            funext y
            simp only [moved, put]
            split
            · rename_i h; rw [h, hw]
            · rfl
          rw [e]
          refine Prod.ext (congrArg₂ _ ?_ rfl) ?_
          · unfold join
            rcases hwj with rfl | rfl
            · rw [hw]
            · rw [hw]
              cases u (2 * j) <;> rfl
          · show (u (2 * j)).or (u (2 * j + 1)) = u (w ^^^ 1)
            rcases hwj with rfl | rfl
            · rw [sib_even, hw]; rfl
            · rw [sib_odd, hw]; simp
        | some t =>
          simp only [Option.map_some]
          rw [hI]
          refine Prod.ext (congrArg₂ _ ?_ ?_) rfl
          · show _ = join (put u w (some t)) j
            unfold join
            rcases hwj with rfl | rfl
            · rw [put_eq, put_ne _ _ (by omega), ← sib_even, ha, hw]; rfl
            · rw [put_eq, put_ne _ _ (by omega), hw]
              rw [sib_odd] at ha
              rw [ha]; rfl
          · apply List.map_congr_left
            intro i hi
            have := (List.mem_range'_1.1 hi).1
            exact join_congr (put_ne _ _ (by omega)).symm (put_ne _ _ (by omega)).symm
      | cons w2 ws =>
        have hw2 := mem_holes.1 (hws ▸ List.mem_cons_self : w2 ∈ holes u (j + 1) k)
        obtain ⟨t, ht⟩ := Option.isSome_iff_exists.1 hw2.2.2
        have hd2 := sb_div w2
        have hI := ih (j + 1) o (put u (w2 ^^^ 1) none)
        rw [holes_put k (j + 1) w2 ws hws] at hI
        rw [takeNext_cons k (j + 1) o w2 ws t hws ht]
        simp only
        rw [hI]
        have hsort := holes_half (u := u) k (j + 1)
        rw [hws] at hsort
        have hlt := (List.pairwise_cons.1 hsort).1
        have hb' : ∀ x ∈ ws, j < x / 2 := fun x hx => by have := hlt x hx; omega
        refine Prod.ext (congrArg₂ _ ?_ ?_) ?_
        · have e : ∀ y, y / 2 ≤ j → moved (w :: w2 :: ws) o u y = put u w (some t) y := by
            intro y hy
            simp only [moved]
            rw [hfix _ ws y hb' hy, put_ne _ _ (by omega), ht]
          unfold join
          rw [e _ (by omega), e _ (by omega)]
          rcases hwj with rfl | rfl
          · rw [put_eq, put_ne _ _ (by omega), ← sib_even, ha, hw]; rfl
          · rw [put_eq, put_ne _ _ (by omega), hw]
            rw [sib_odd] at ha
            rw [ha]; rfl
        · apply List.map_congr_left
          intro i hi
          have hi := (List.mem_range'_1.1 hi).1
          have e : ∀ y, j < y / 2 → moved ws o (put u (w2 ^^^ 1) none) y = moved (w :: w2 :: ws) o u y := by
            intro y hy
            simp only [moved]
            apply moved_congr _ ws _ _ (fun y => j < y / 2) (Nat.le_refl _) _ _ y hy
            · intro z hz
              simp only [put]
              split
              · rfl
              · rw [if_neg (by omega : ¬ z = w)]
            · intro x hx
              have := hb' x hx
              have := sb_div x
              exact ⟨by omega, by omega⟩
          exact join_congr (e _ (by omega)) (e _ (by omega))
        · show rootOf ws o _ = rootOf (w :: w2 :: ws) o u
          unfold rootOf
          simp only [List.length_cons]
          by_cases hp : ws.length % 2 = 0
          · rw [if_pos hp, if_pos (by omega)]
          · rw [if_neg hp, if_neg (by omega : ¬ (ws.length + 1 + 1) % 2 = 0)]
            cases ws with
            | nil => simp at hp
            | cons x ws =>
              have hm : (x :: ws).getLastD 0 ∈ x :: ws := oddLast_mem (by unfold oddLast; rw [if_neg hp]; simp)
              have := hlt _ hm
              have h3 := sb_div ((x :: ws).getLastD 0)
              rw [put_ne]
              · rfl
              · intro hc; rw [hc] at h3; omega
    rw [pairsOf_succ, List.range'_succ, List.map_cons]
    have hI := ih (j + 1) o u
    cases h0 : u (2 * j) with
    | none =>
      cases h1 : u (2 * j + 1) with
      | none =>
        have e : holes u j (k + 1) = holes u (j + 1) k := by simp only [holes]; rw [h0, h1]
        rw [e]
        simp only [joinRow]
        rw [hI]
        refine Prod.ext (congrArg₂ _ ?_ rfl) rfl
        unfold join
        rw [hfix u _ _ hb (by omega), h0]
      | some b =>
        have e : holes u j (k + 1) = (2 * j) :: holes u (j + 1) k := by simp only [holes]; rw [h0, h1]
        rw [e]
        have := half (2 * j) b (.inl rfl) h0 (by rw [sib_even, h1])
        rw [← this, h0, h1]
        rfl
    | some a =>
      cases h1 : u (2 * j + 1) with
      | none =>
        have e : holes u j (k + 1) = (2 * j + 1) :: holes u (j + 1) k := by simp only [holes]; rw [h0, h1]
        rw [e]
        have := half (2 * j + 1) a (.inr rfl) h1 (by rw [sib_odd, h0])
        rw [← this, h0, h1]
        rfl
      | some b =>
        have e : holes u j (k + 1) = holes u (j + 1) k := by simp only [holes]; rw [h0, h1]
        rw [e]
        simp only [joinRow]
        rw [hI]
        refine Prod.ext (congrArg₂ _ ?_ rfl) rfl
        unfold join
        rw [hfix u _ _ hb (by omega), hfix u _ _ hb (by omega), h0, h1]

/-! ## One row -/

/-- A row with deleted slots. -/
def slots (D : List ℕ) (g : ℕ → T) (y : ℕ) : Option T := if y ∈ D then none else some (g y)

theorem slots_mem {D : List ℕ} {g : ℕ → T} {y : ℕ} (h : y ∈ D) : slots D g y = none := if_pos h
theorem slots_not_mem {D : List ℕ} {g : ℕ → T} {y : ℕ} (h : y ∉ D) : slots D g y = some (g y) := if_neg h

theorem slots_isSome {D : List ℕ} {g : ℕ → T} {y : ℕ} : (slots D g y).isSome ↔ y ∉ D := by
  unfold slots; split <;> simp_all

theorem slots_none {D : List ℕ} {g : ℕ → T} {y : ℕ} : slots D g y = none ↔ y ∈ D := by
  unfold slots; split <;> simp_all

theorem sorted_ext {l l' : List ℕ} (h : l.Pairwise (· < ·)) (h' : l'.Pairwise (· < ·)) (hm : ∀ x, x ∈ l ↔ x ∈ l') : l = l' := by
  induction l generalizing l' with
  | nil =>
    cases l' with
    | nil => rfl
    | cons a l' => exact absurd ((hm a).2 (by simp)) (by simp)
  | cons a l ih =>
    cases l' with
    | nil => exact absurd ((hm a).1 (by simp)) (by simp)
    | cons a' l' =>
      obtain ⟨h1, h2⟩ := List.pairwise_cons.1 h
      obtain ⟨h1', h2'⟩ := List.pairwise_cons.1 h'
      have e : a = a' := by
        have m1 := (hm a).1 (by simp)
        have m2 := (hm a').2 (by simp)
        rcases List.mem_cons.1 m1 with e | m1
        · exact e
        · rcases List.mem_cons.1 m2 with e | m2
          · exact e.symm
          · have := h1 _ m2; have := h1' _ m1; omega
      subst e
      refine congrArg _ (ih h2 h2' fun x => ?_)
      constructor
      · intro hx
        rcases List.mem_cons.1 ((hm x).1 (by simp [hx])) with e | e
        · have := h1 x hx; omega
        · exact e
      · intro hx
        rcases List.mem_cons.1 ((hm x).2 (by simp [hx])) with e | e
        · have := h1' x hx; omega
        · exact e

theorem holes_eq {m : ℕ} {D : List ℕ} (g : ℕ → T) (hD : D.Pairwise (· < ·)) :
    holes (slots D g) 0 m = (idxNext (rowTs m D) 0).2 := by
  have hs := nextSpec _ (rowTs m D) 0 (Nat.le_refl _) (hD.sublist List.filter_sublist)
  apply sorted_ext ((holes_half m 0).imp fun h => by omega) hs.sorted_ws
  intro x
  rw [mem_holes, hs.mem_ws, slots_none, slots_isSome]
  have hd := sb_div x
  have hx := xor_one_cases x
  simp only [rowTs, List.mem_filter, decide_eq_true_eq]
  constructor
  · rintro ⟨h1, h2, h3⟩
    exact ⟨⟨h2, by omega⟩, fun h => h3 h.1⟩
  · rintro ⟨⟨h1, h2⟩, h3⟩
    exact ⟨by omega, h1, fun h => h3 ⟨h, by omega⟩⟩

theorem moved_slots {m : ℕ} {b : Bool} {D D' : List ℕ} (h : RowOK m b D D' (rowS m b D) (rowX m b D)) (g : ℕ → T) {y : ℕ}
    (hy : y < 2 * m) :
    (y / 2 ∉ D' → moved (idxNext (rowTs m D) 0).2 (if b then slots D g (2 * m) else none) (slots D g) y =
      some (g (seqPerm (rowS m b D) y))) ∧
    (y / 2 ∈ D' → rowX m b D ≠ some y →
      moved (idxNext (rowTs m D) 0).2 (if b then slots D g (2 * m) else none) (slots D g) y = none) := by
  have hsort : (idxNext (rowTs m D) 0).2.Pairwise fun a b => a / 2 < b / 2 := by
    rw [← holes_eq (fun _ => ()) h.sortedD]; exact holes_half m 0
  have hwD : ∀ x ∈ (idxNext (rowTs m D) 0).2, x ∈ D := by
    intro x hx
    rw [← holes_eq (fun _ => ()) h.sortedD] at hx
    exact slots_none.1 (mem_holes.1 hx).2.1
  have hS : rowS m b D = idxPairs (idxNext (rowTs m D) 0).2 ++
    (if rowRP m b D then (oddLast (idxNext (rowTs m D) 0).2).map fun w => (2 * m, w) else []) := rfl
  generalize (idxNext (rowTs m D) 0).2 = ws at *
  have hzone : ∀ z, z < 2 * m → ((z / 2 ∈ D' ∨ (b = true ∧ z = 2 * m)) ↔ z / 2 ∈ D') := by
    intro z hz
    constructor
    · rintro (h | h)
      · exact h
      · omega
    · exact .inl
  have hin : ∀ p ∈ idxPairs ws, p ∈ rowS m b D := fun p hp => by rw [hS]; exact List.mem_append_left _ hp
  by_cases c1 : ∃ p ∈ idxPairs ws, p.2 = y
  · obtain ⟨⟨s, w⟩, hp, rfl⟩ := c1
    have hp' := hin _ hp
    obtain ⟨a1, a2, a3, a4⟩ := h.swaps _ _ hp'
    rw [hzone _ hy] at a4
    refine ⟨fun _ => ?_, fun hc => absurd hc a4⟩
    rw [(moved_pair _ ws _ _ (Nat.le_refl _) hsort hp).1, slots_not_mem a2, seqPerm_snd h.disj hp']
  · by_cases c2 : ∃ p ∈ idxPairs ws, p.1 = y
    · obtain ⟨⟨s, w⟩, hp, rfl⟩ := c2
      have hp' := hin _ hp
      obtain ⟨a1, a2, a3, a4⟩ := h.swaps _ _ hp'
      rw [hzone _ hy] at a3
      refine ⟨fun hc => absurd a3 hc, fun _ _ => ?_⟩
      exact (moved_pair _ ws _ _ (Nat.le_refl _) hsort hp).2
    · have hno : ∀ p ∈ idxPairs ws, p.1 ≠ y ∧ p.2 ≠ y := fun p hp => ⟨fun e => c2 ⟨p, hp, e⟩, fun e => c1 ⟨p, hp, e⟩⟩
      by_cases c3 : y ∈ oddLast ws
      · rw [moved_last _ ws _ y (Nat.le_refl _) c3]
        by_cases hrp : rowRP m b D = true
        · have hp : (2 * m, y) ∈ rowS m b D := by
            rw [hS, if_pos hrp]
            exact List.mem_append_right _ (List.mem_map.2 ⟨y, c3, rfl⟩)
          obtain ⟨a1, a2, a3, a4⟩ := h.swaps _ _ hp
          rw [hzone _ hy] at a4
          refine ⟨fun _ => ?_, fun hc => absurd hc a4⟩
          have hb : b = true := by
            unfold rowRP at hrp; simp at hrp; exact hrp.1
          rw [if_pos hb, slots_not_mem a2, seqPerm_snd h.disj hp]
        · have ho : (if b = true then slots D g (2 * m) else none) = none := by
            unfold rowRP at hrp
            cases b with
            | false => rfl
            | true => simp at hrp; exact slots_mem hrp
          rw [ho]
          refine ⟨fun hc => ?_, fun _ _ => rfl⟩
          exfalso
          have hfix : ∀ p ∈ rowS m b D, p.1 ≠ y ∧ p.2 ≠ y := by
            intro p hp
            rw [hS, if_neg hrp, List.append_nil] at hp
            exact hno p hp
          have hyD : y ∈ D := hwD _ (oddLast_mem c3)
          exact hc ((hzone _ hy).1 ((h.rest y hfix).1 hyD).1)
      · rw [moved_fix _ ws _ y (Nat.le_refl _) hno c3]
        have hfix : ∀ p ∈ rowS m b D, p.1 ≠ y ∧ p.2 ≠ y := by
          intro p hp
          rw [hS] at hp
          rcases List.mem_append.1 hp with hp | hp
          · exact hno p hp
          · split at hp
            · obtain ⟨w, hw, rfl⟩ := List.mem_map.1 hp
              exact ⟨by simp; omega, fun e => c3 (e ▸ hw)⟩
            · simp at hp
        have hr := h.rest y hfix
        rw [hzone _ hy] at hr
        rw [seqPerm_fix hfix]
        refine ⟨fun hc => slots_not_mem fun hd => hc (hr.1 hd).1, fun hc hX => slots_mem (hr.2 ⟨hc, hX⟩)⟩

/-- The joined row in terms of the row's swaps, and its root in terms of the collapse. -/
theorem joinRow_slots {m : ℕ} {b : Bool} {D D' : List ℕ} (h : RowOK m b D D' (rowS m b D) (rowX m b D)) (g : ℕ → List α) :
    joinRow m (pairsOf (slots D g) 0 m) (if b then slots D g (2 * m) else none) =
      ((List.range m).map (slots D' fun i => g (seqPerm (rowS m b D) (2 * i)) ++ g (seqPerm (rowS m b D) (2 * i + 1))),
        (rowX m b D).map g) := by
  rw [joinRow_eq, holes_eq g h.sortedD, ← List.range_eq_range']
  refine Prod.ext ?_ ?_
  · apply List.map_congr_left
    intro i hi
    have hi := List.mem_range.1 hi
    obtain ⟨a1, a2⟩ := moved_slots h g (y := 2 * i) (by omega)
    obtain ⟨b1, b2⟩ := moved_slots h g (y := 2 * i + 1) (by omega)
    rw [show 2 * i / 2 = i by omega] at a1 a2
    rw [show (2 * i + 1) / 2 = i by omega] at b1 b2
    unfold join
    by_cases hd : i ∈ D'
    · rw [slots_mem hd]
      by_cases hX : rowX m b D = some (2 * i)
      · rw [b2 hd (by rw [hX]; simp)]
        split <;> simp_all
      · rw [a2 hd hX]
    · rw [slots_not_mem hd, a1 hd, b1 hd]
  · show rootOf _ _ _ = _
    have hcol := h.col
    unfold rootOf
    have hX : rowX m b D = if rowRP m b D then (if (idxNext (rowTs m D) 0).2.length % 2 = 0 then some (2 * m) else none)
      else (if (idxNext (rowTs m D) 0).2.length % 2 = 0 then none else some ((idxNext (rowTs m D) 0).2.getLastD 0 ^^^ 1)) := rfl
    generalize (idxNext (rowTs m D) 0).2 = ws at *
    by_cases hrp : rowRP m b D = true
    · have : b = true ∧ 2 * m ∉ D := by unfold rowRP at hrp; simpa using hrp
      rw [if_pos hrp] at hX
      rw [if_pos this.1, slots_not_mem this.2, hX]
      split <;> rfl
    · have ho : (if b = true then slots D g (2 * m) else none) = none := by
        unfold rowRP at hrp
        cases b with
        | false => rfl
        | true => simp at hrp; exact slots_mem hrp
      rw [if_neg hrp] at hX
      rw [ho]
      by_cases hp : ws.length % 2 = 0
      · rw [if_pos hp] at hX ⊢; rw [hX]; rfl
      · rw [if_neg hp] at hX
        rw [if_neg hp, if_neg (by simp), hX, slots_not_mem (hcol _ hX).2.1]; rfl

/-! ## All rows -/

theorem range_two_flatMap (f : ℕ → List α) : ∀ k, (List.range (2 * k)).flatMap f = (List.range k).flatMap fun x => f (2 * x) ++ f (2 * x + 1) := by
  intro k
  induction k with
  | zero => rfl
  | succ k ih =>
    rw [show 2 * (k + 1) = 2 * k + 1 + 1 by ring, List.range_succ, List.range_succ, List.range_succ, List.flatMap_append,
      List.flatMap_append, List.flatMap_append, ih]
    simp

theorem settle_nil : ∀ k, settle k ([] : List (Option (List α))) = [] := by
  intro k
  induction k with
  | zero => rfl
  | succ k ih =>
    show settle k [] ++ _ = []
    rw [ih]; rfl

theorem siblings_row (u : ℕ → Option T) (m : ℕ) (b : Bool) :
    siblings ((List.range (2 * m + b.toNat)).map u) = (pairsOf u 0 m, if b then u (2 * m) else none) := by
  rw [List.range_eq_range']
  cases b with
  | false => exact siblings_even u m 0
  | true =>
    have := siblings_odd u m 0
    rw [Nat.zero_add] at this
    exact this

theorem settle_rows {n n' : ℕ} {D : List ℕ} {R : ℕ} (hi : ∀ r, RowInv n n' D r) (hn : n ≤ 2 ^ R) :
    ∀ (k r : ℕ) (g : ℕ → List α), r ≤ R → n / 2 ^ r < 2 ^ k →
      settle k ((List.range (n / 2 ^ r)).map (slots (Dn n D r) g)) =
        (List.range (n' / 2 ^ r)).flatMap fun x => g ((sg n n' D R r).symm x) := by
  intro k
  induction k with
  | zero =>
    intro r g _ h
    have h1 := (hi r).le
    have h0 : n / 2 ^ r = 0 := by rw [Nat.pow_zero] at h; exact Nat.lt_one_iff.1 h
    rw [h0] at h1
    rw [h0, Nat.le_zero.1 h1]
    rfl
  | succ k ih =>
    intro r g hr h
    rcases Nat.lt_or_ge r R with hlt | hge
    · have hok := (hi r).ok
      have hrow := siblings_row (slots (Dn n D r) g) (n / 2 ^ (r + 1)) (n.testBit r)
      rw [← div_bit] at hrow
      have hj := joinRow_slots hok g
      have hlt2 : n / 2 ^ (r + 1) < 2 ^ k := by
        have := div_bit n r
        rw [Nat.pow_succ] at h
        omega
      have hI := ih (r + 1) (fun i => g (seqPerm (Sn n D r) (2 * i)) ++ g (seqPerm (Sn n D r) (2 * i + 1))) hlt hlt2
      show settle k (joinRow _ _ _).1 ++ (joinRow _ _ _).2.getD [] = _
      rw [hrow]
      simp only [pairsOf_length]
      rw [hj]
      simp only
      have hI' : settle k ((List.range (n / 2 ^ (r + 1))).map (slots (Dn n D (r + 1)) fun i =>
        g (seqPerm (rowS (n / 2 ^ (r + 1)) (n.testBit r) (Dn n D r)) (2 * i)) ++
          g (seqPerm (rowS (n / 2 ^ (r + 1)) (n.testBit r) (Dn n D r)) (2 * i + 1)))) = _ := hI
      rw [hI']
      have hs := sg_sinks hi hn (r := r + 1) hlt
      have hz := zone_iff hs (hi r).next.le
      have hcnt := (hi r).next_counts.2
      rw [sg_step n n' D hlt]
      generalize sg n n' D R (r + 1) = ρ at *
      have hinv : ∀ y, (seqPerm (Sn n D r)).symm y = seqPerm (Sn n D r) y := fun y =>
        congrArg (fun p : Perm ℕ => p y) (seqPerm_invol hok.disj)
      have hup : ∀ x c, c < 2 → (up 1 ρ).symm (2 * x + c) = 2 * ρ.symm x + c := by
        intro x c hc
        rw [Equiv.symm_apply_eq, up1_apply, show (2 * ρ.symm x + c) / 2 = ρ.symm x by omega, Equiv.apply_symm_apply]
        omega
      have hsymm : ∀ y, (up 1 ρ * rowPerm n n' D r ρ).symm y = (rowPerm n n' D r ρ).symm ((up 1 ρ).symm y) := fun y => rfl
      have hlow : ∀ x c, c < 2 → x < n' / 2 ^ (r + 1) →
          (up 1 ρ * rowPerm n n' D r ρ).symm (2 * x + c) = seqPerm (Sn n D r) (2 * ρ.symm x + c) := by
        intro x c hc hx
        rw [hsymm, hup x c hc, Equiv.symm_apply_eq]
        unfold rowPerm
        have hyz : ¬ Zone (n / 2 ^ (r + 1)) (n.testBit r) (Dn n D (r + 1)) (2 * ρ.symm x + c) := by
          rw [hz, ← hup x c hc, Equiv.apply_symm_apply]
          omega
        have h2 : seqPerm (Sn n D r) (seqPerm (Sn n D r) (2 * ρ.symm x + c)) = 2 * ρ.symm x + c := by
          rw [← hinv, Equiv.symm_apply_apply]
        cases hX : Xn n D r with
        | none => rw [one_mul, h2]
        | some x0 =>
          simp only
          rw [Perm.mul_apply, h2, swap_apply_of_ne_of_ne]
          · rintro e; exact hyz (e ▸ (hok.col x0 hX).1)
          · rintro e; exact hyz (e ▸ colDst_zone (hi r) hs hX)
      have e1 : (List.range (2 * (n' / 2 ^ (r + 1)))).flatMap (fun x => g ((up 1 ρ * rowPerm n n' D r ρ).symm x)) =
          (List.range (n' / 2 ^ (r + 1))).flatMap fun x =>
            g (seqPerm (Sn n D r) (2 * ρ.symm x)) ++ g (seqPerm (Sn n D r) (2 * ρ.symm x + 1)) := by
        rw [range_two_flatMap, List.flatMap_def, List.flatMap_def]
        congr 1
        apply List.map_congr_left
        intro x hx
        have hx := List.mem_range.1 hx
        have l0 := hlow x 0 (by omega) hx
        rw [Nat.add_zero, Nat.add_zero] at l0
        rw [l0, hlow x 1 (by omega) hx]
      have hXe : rowX (n / 2 ^ (r + 1)) (n.testBit r) (Dn n D r) = Xn n D r := rfl
      rw [hXe]
      cases hX : Xn n D r with
      | none =>
        rw [hX] at hcnt
        simp only [Option.toList_none, List.length_nil, Nat.add_zero] at hcnt
        rw [hcnt, e1]
        simp
      | some x0 =>
        rw [hX] at hcnt
        simp only [Option.toList_some, List.length_singleton] at hcnt
        rw [hcnt, List.range_succ, List.flatMap_append, e1]
        congr 1
        simp only [Option.map_some, Option.getD_some, List.flatMap_cons, List.flatMap_nil, List.append_nil]
        congr 1
        rw [hsymm, eq_comm, Equiv.symm_apply_eq, ← colDst_spec n' r ρ, Equiv.symm_apply_apply]
        unfold rowPerm
        rw [hX]
        simp only
        obtain ⟨c1, c2, c3, -⟩ := hok.col x0 hX
        have hf : ∀ p ∈ Sn n D r, p.1 ≠ x0 ∧ p.2 ≠ x0 := fun p hp => ⟨c3 p hp, fun e => c2 (e ▸ (hok.swaps p.1 p.2 hp).1)⟩
        rw [Perm.mul_apply, seqPerm_fix hf, swap_apply_left]
    · have hrR : r = R := by omega
      subst hrR
      rw [sg_top n n' D (Nat.le_refl _)]
      have h1 : n / 2 ^ r ≤ 1 := by
        calc n / 2 ^ r ≤ 2 ^ r / 2 ^ r := Nat.div_le_div_right hn
          _ = 1 := Nat.div_self (by positivity)
      have hc := (hi r).count
      have hb := (hi r).bound
      generalize Dn n D r = Q at *
      generalize n / 2 ^ r = A at *
      generalize n' / 2 ^ r = B at *
      rcases Nat.lt_or_ge A 1 with hA | hA
      · rw [show A = 0 by omega, show B = 0 by omega]
        exact settle_nil _
      · have hA : A = 1 := by omega
        subst hA
        show settle k [] ++ (slots Q g 0).getD [] = _
        rw [settle_nil, List.nil_append]
        match Q, hc, hb with
        | [], hc, _ =>
          rw [slots_not_mem (by simp)]
          have : B = 1 := by simpa using hc.symm
          subst this
          simp [Equiv.Perm.one_symm]
        | [a], hc, hb =>
          have ha := hb a (by simp)
          have : a = 0 := by omega
          subst this
          have : B = 0 := by simpa using hc
          subst this
          rw [slots_mem (by simp)]; rfl
        | a :: b :: Q, hc, _ => simp only [List.length_cons] at hc; omega

/-- The order of the leaves after the remove transformation. -/
theorem deleteLeaves_eq {n : ℕ} {D : List ℕ} {R : ℕ} (hs : D.Pairwise (· < ·)) (hb : ∀ i ∈ D, i < n) (hn : n ≤ 2 ^ R)
    {n' : ℕ} (hn' : n = n' + D.length) (f : ℕ → α) :
    deleteLeaves ((List.range n).map f) D = (List.range n').map (f ∘ (sg n n' D R 0).symm) := by
  have hz : ((List.range n).map f).zipIdx.map (fun e => if D.contains e.2 then none else some [e.1]) =
      (List.range n).map (slots D fun i => [f i]) := by
    apply List.ext_getElem
    · simp
    · intro i h1 h2
      simp [slots]
  unfold deleteLeaves
  rw [hz, List.length_map, List.length_range]
  have := settle_rows (rowInv hs hb hn') hn n 0 (fun i => [f i]) (Nat.zero_le _) (by simpa using Nat.lt_two_pow_self)
  simp only [Nat.pow_zero, Nat.div_one] at this
  rw [show Dn n D 0 = D from rfl] at this
  rw [this]
  induction List.range n' with
  | nil => rfl
  | cons x l ih => rw [List.flatMap_cons, ih]; rfl

end Settle
end Utreexo
