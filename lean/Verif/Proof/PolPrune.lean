import Verif.Proof.PolSwap

/-! # Pruning, merging and new leaves of a pollard -/

set_option linter.unusedSectionVars false

namespace Utreexo
open Spec Equiv

variable {H : Type} [DecidableEq H] [HashOps H]

namespace Pol

/-- The object at a pointer has no nieces. -/
def Dead (heap : List (INode H)) (o : Option ℕ) : Prop := nz heap o 0 = none ∧ nz heap o 1 = none

/-- What is left of a pointer after pruning. -/
def keep (heap : List (INode H)) (o : Option ℕ) : Option ℕ :=
  if (nz heap o 0).isNone && (nz heap o 1).isNone then none else o

theorem keep_dead {heap : List (INode H)} {o : Option ℕ} (h : Dead heap o) : keep heap o = none := by
  unfold keep; rw [h.1, h.2]; rfl

theorem keep_live {heap : List (INode H)} {o : Option ℕ} (h : ¬ Dead heap o) : keep heap o = o := by
  unfold keep
  rw [if_neg]
  simpa [Dead] using h

theorem pruned_ok {heap : List (INode H)} {o : Option ℕ} (h : ∀ p, o = some p → p < heap.length) :
    pruned heap o = .ok (keep heap o) := by
  cases o with
  | none => simp [pruned, keep]
  | some p =>
    have g : heap[p]? = some (heap[p]'(h p rfl)) := List.getElem?_eq_getElem _
    unfold pruned deadEnd keep
    simp only
    rw [vecGet_ok g, ok_bind, nz_some g, nz_some g]
    generalize heap[p]'(h p rfl) = x
    obtain ⟨h, n0, n1⟩ := x
    cases n0 <;> cases n1 <;> simp [INode.niece]

theorem set_self {heap : List (INode H)} {p : ℕ} {z : INode H} (h : heap[p]? = some z) : heap.set p z = heap := by
  apply List.ext_getElem?
  intro i
  rw [List.getElem?_set]
  by_cases hi : p = i
  · subst hi; rw [if_pos rfl, if_pos (lt_of_get h), h]
  · rw [if_neg hi]

theorem setNiece_self (z : INode H) {b : ℕ} (hb : b < 2) : INode.setNiece z b (INode.niece z b) = z := by
  unfold INode.setNiece INode.niece
  rcases Nat.lt_or_ge b 1 with h | h
  · have : b = 0 := by omega
    subst this; simp
  · have : b = 1 := by omega
    subst this; simp

theorem upd_same {A : Addr} {r i : ℕ} : upd A r i (A r i) = A := by
  funext q x
  unfold upd
  split
  · rename_i h; rw [h.1, h.2]
  · rfl

/-- Dropping a niece if it is a dead end. -/
theorem Shape.dropIf {heap : List (INode H)} {rt : ℕ → ℕ → Bool} {A : Addr} (s : Shape heap rt A)
    {q x b p : ℕ} {z : INode H} (hp : holder rt A (q + 1) x = some p) (hz : heap[p]? = some z) (hb : b < 2)
    (hrt : rt q (2 * x + b) = false) :
    INode.niece z b = A q (2 * x + b) ∧
    Shape (heap.set p (INode.setNiece z b (keep heap (A q (2 * x + b))))) rt
      (upd A q (2 * x + b) (keep heap (A q (2 * x + b)))) := by
  have hk : INode.niece z b = A q (2 * x + b) := by
    have := s.kids q (2 * x + b) hrt
    rw [show (2 * x + b) / 2 = x by omega, show (2 * x + b) % 2 = b by omega, hp, nz_some hz] at this
    exact this.symm
  refine ⟨hk, ?_⟩
  by_cases hd : Dead heap (A q (2 * x + b))
  · cases ha : A q (2 * x + b) with
    | none =>
      have : keep heap none = none := by unfold keep; split <;> rfl
      rw [this]
      have e1 : INode.setNiece z b none = z := by
        have := setNiece_self z hb
        rw [hk, ha] at this; exact this
      have e2 : upd A q (2 * x + b) none = A := by
        have := upd_same (A := A) (r := q) (i := 2 * x + b)
        rw [ha] at this; exact this
      rw [e1, e2, set_self hz]; exact s
    | some t =>
      rw [ha] at hd
      have : keep heap (some t) = none := keep_dead hd
      rw [this]
      exact s.drop hp hz hb ha hrt hd
  · have : keep heap (A q (2 * x + b)) = A q (2 * x + b) := keep_live hd
    rw [this, upd_same, ← hk, setNiece_self z hb, set_self hz]
    exact s

/-- The address map after pruning below node `x` of row `q + 1`. -/
def pruneAddr (heap : List (INode H)) (q x : ℕ) (A : Addr) : Addr := fun q' y =>
  if q' = q ∧ y / 2 = x then keep heap (A q y) else A q' y

theorem prune_ok {heap : List (INode H)} {rt : ℕ → ℕ → Bool} {A : Addr} (s : Shape heap rt A)
    {q x p : ℕ} (hp : holder rt A (q + 1) x = some p)
    (h0 : rt q (2 * x) = false) (h1 : rt q (2 * x + 1) = false) :
    ∃ heap', prune heap (some p) = .ok heap' ∧ heap'.length = heap.length ∧ Shape heap' rt (pruneAddr heap q x A) ∧
      (∀ t, hz heap' t = hz heap t) ∧ (∀ t b, t ≠ p → nz heap' (some t) b = nz heap (some t) b) := by
  obtain ⟨z, hz'⟩ := s.hget hp
  have hpl := lt_of_get hz'
  obtain ⟨jp, hjp⟩ := holder_addr hp
  obtain ⟨k0, s0⟩ := s.dropIf hp hz' (b := 0) (by omega) (by simpa using h0)
  rw [add_zero] at k0 s0
  set v0 := keep heap (A q (2 * x)) with hv0
  set heap1 := heap.set p (INode.setNiece z 0 v0) with hh1
  have hp1 : holder rt (upd A q (2 * x) v0) (q + 1) x = some p := by
    rw [holder_upd_row (by omega)]; exact hp
  have hz1 : heap1[p]? = some (INode.setNiece z 0 v0) := by rw [hh1, List.getElem?_set_self hpl]
  obtain ⟨k1, s1⟩ := s0.dropIf hp1 hz1 (b := 1) (by omega) h1
  have ea : upd A q (2 * x) v0 q (2 * x + 1) = A q (2 * x + 1) := upd_ne (by omega)
  rw [ea] at k1 s1
  have nzh1 : ∀ t b, t ≠ p → nz heap1 (some t) b = nz heap (some t) b := fun t b ht => by
    rw [hh1, nz_set_ne ht]
  have ek : keep heap1 (A q (2 * x + 1)) = keep heap (A q (2 * x + 1)) := by
    cases ha : A q (2 * x + 1) with
    | none => simp [keep]
    | some t =>
      have : t ≠ p := by
        intro he; subst he; have := (s.inj _ _ _ _ _ ha hjp).1; omega
      unfold keep
      rw [nzh1 t 0 this, nzh1 t 1 this]
  rw [ek] at s1
  set v1 := keep heap (A q (2 * x + 1)) with hv1
  have hl1 : heap1.length = heap.length := by simp [hh1]
  refine ⟨heap1.set p (INode.setNiece (INode.setNiece z 0 v0) 1 v1), ?_, by simp [hl1], ?_, ?_, ?_⟩
  · unfold prune
    have b0 : z.n0 = A q (2 * x) := k0
    have b1 : z.n1 = A q (2 * x + 1) := k1
    have w1 : store heap (some p) { z with n0 := v0 } = .ok heap1 := store_ok hpl _
    have w2 : store heap1 (some p) { z with n0 := v0, n1 := v1 } =
      .ok (heap1.set p (INode.setNiece (INode.setNiece z 0 v0) 1 v1)) := store_ok (by omega) _
    rw [deref_ok hz', ok_bind, b0, pruned_ok (fun t ht => (s.bnd _ _ _ ht).2), ok_bind, w1, ok_bind, b1,
      pruned_ok (fun t ht => by rw [hl1]; exact (s.bnd _ _ _ ht).2), ok_bind, ek, w2]
  · have : pruneAddr heap q x A = upd (upd A q (2 * x) v0) q (2 * x + 1) v1 := by
      funext q' y
      unfold pruneAddr upd
      by_cases hq : q' = q
      · subst hq
        by_cases hy : y / 2 = x
        · rw [if_pos ⟨rfl, hy⟩]
          rcases Nat.mod_two_eq_zero_or_one y with h | h
          · have : y = 2 * x := by omega
            subst this
            simp
            rfl
          · have : y = 2 * x + 1 := by omega
            subst this
            simp
            rfl
        · rw [if_neg (by tauto), if_neg (by omega), if_neg (by omega)]
      · simp [hq]
    rw [this]; exact s1
  · intro t
    rw [hz_set (by omega), hh1, hz_set hpl]
    by_cases ht : t = p
    · subst ht
      rw [if_pos rfl]
      unfold hz; rw [hz']; rfl
    · rw [if_neg ht, if_neg ht]
  · intro t b ht
    rw [nz_set_ne ht, nzh1 t b ht]

/-! ## Merging two roots -/

/-- The roots after joining the nodes `2 z`, `2 z + 1` of row `q`. -/
def mergeRt (rt : ℕ → ℕ → Bool) (q z : ℕ) : ℕ → ℕ → Bool := fun r x =>
  if r = q ∧ x / 2 = z then false else if r = q + 1 ∧ x = z then true else rt r x

theorem mergeRt_low {rt : ℕ → ℕ → Bool} {q z x : ℕ} (h : x / 2 = z) : mergeRt rt q z q x = false := by
  unfold mergeRt; rw [if_pos ⟨rfl, h⟩]

theorem mergeRt_new {rt : ℕ → ℕ → Bool} {q z : ℕ} : mergeRt rt q z (q + 1) z = true := by
  unfold mergeRt; rw [if_neg (by omega), if_pos ⟨rfl, rfl⟩]

theorem mergeRt_other {rt : ℕ → ℕ → Bool} {q z r x : ℕ} (h1 : ¬ (r = q ∧ x / 2 = z)) (h2 : ¬ (r = q + 1 ∧ x = z)) :
    mergeRt rt q z r x = rt r x := by
  unfold mergeRt; rw [if_neg h1, if_neg h2]

theorem holder_root {rt : ℕ → ℕ → Bool} {A : Addr} {q i : ℕ} (h : rt q i = true) : holder rt A q i = A q i := by
  unfold holder; rw [if_pos h]

theorem holder_sib {rt : ℕ → ℕ → Bool} {A : Addr} {q i : ℕ} (h : rt q i = false) (h' : rt q (i ^^^ 1) = false) :
    holder rt A q i = A q (i ^^^ 1) := by
  unfold holder; rw [h, h']; rfl

theorem holder_none {rt : ℕ → ℕ → Bool} {A : Addr} {q i : ℕ} (h : rt q i = false) (h' : rt q (i ^^^ 1) = true) :
    holder rt A q i = none := by
  unfold holder; rw [h, h']; rfl

theorem holder_congr {rt rt' : ℕ → ℕ → Bool} {A A' : Addr} {q i : ℕ} (h1 : rt' q i = rt q i)
    (h2 : rt' q (i ^^^ 1) = rt q (i ^^^ 1)) (h3 : A' q i = A q i) (h4 : A' q (i ^^^ 1) = A q (i ^^^ 1)) :
    holder rt' A' q i = holder rt A q i := by
  unfold holder; rw [h1, h2, h3, h4]

theorem Shape.merge {heap heap' : List (INode H)} {rt : ℕ → ℕ → Bool} {A : Addr} (s : Shape heap rt A)
    {q z lp rp new : ℕ} (hl : A q (2 * z) = some lp) (hr : A q (2 * z + 1) = some rp)
    (tl : rt q (2 * z) = true) (tr : rt q (2 * z + 1) = true) (tp : rt (q + 1) z = false) (an : A (q + 1) z = none)
    (hnew : new = heap.length) (hlen : heap'.length = heap.length + 1)
    (hnz : ∀ t b, b < 2 → nz heap' (some t) b = if t = new then (if b = 0 then some lp else some rp) else
      if t = lp then nz heap (some rp) b else if t = rp then nz heap (some lp) b else nz heap (some t) b) :
    Shape heap' (mergeRt rt q z) (upd A (q + 1) z (some new)) := by
  have bl := s.bnd _ _ _ hl
  have br := s.bnd _ _ _ hr
  have hne : lp ≠ rp := by
    intro h; rw [h] at hl
    have := (s.inj _ _ _ _ _ hl hr).2; omega
  have hlt : ∀ r i p, A r i = some p → p ≠ new := fun r i p h => by have := (s.bnd r i p h).2; omega
  have nzo : ∀ r i p b, A r i = some p → ¬ (r = q ∧ i / 2 = z) → b < 2 → nz heap' (some p) b = nz heap (some p) b := by
    intro r i p b h hn hb
    rw [hnz _ _ hb, if_neg (hlt _ _ _ h), if_neg, if_neg]
    · intro he; subst he
      obtain ⟨rfl, rfl⟩ := s.inj _ _ _ _ _ h hr
      omega
    · intro he; subst he
      obtain ⟨rfl, rfl⟩ := s.inj _ _ _ _ _ h hl
      omega
  have nzl : ∀ b, b < 2 → nz heap' (some lp) b = nz heap (some rp) b := by
    intro b hb; rw [hnz _ _ hb, if_neg (hlt _ _ _ hl), if_pos rfl]
  have nzr : ∀ b, b < 2 → nz heap' (some rp) b = nz heap (some lp) b := by
    intro b hb; rw [hnz _ _ hb, if_neg (hlt _ _ _ hr), if_neg (Ne.symm hne), if_pos rfl]
  refine ⟨?_, ?_, ?_, ?_, ?_, ?rank⟩
  case rank =>
    obtain ⟨rk, r0, r1, r2⟩ := s.rank
    refine ⟨fun t => if t = new then q + 2 else rk t, by simp only [if_neg (show ¬ 0 = new by omega), r0],
      fun r i t h => ?_, fun t c k hc hk => ?_⟩
    · by_cases e : r = q + 1 ∧ i = z
      · obtain ⟨rfl, rfl⟩ := e
        rw [upd_self] at h
        injection h with h
        simp only [← h, if_true]
      · rw [upd_ne e] at h
        simp only [if_neg (hlt _ _ _ h), r1 _ _ _ h]
    · rw [hlen]
      rw [hnz t c hc] at hk
      by_cases e : t = new
      · rw [if_pos e] at hk
        have hk' : k = lp ∨ k = rp := by
          split at hk <;> simp only [Option.some.injEq] at hk
          · exact .inl hk.symm
          · exact .inr hk.symm
        simp only [if_pos e]
        rcases hk' with rfl | rfl
        · simp only [if_neg (hlt _ _ _ hl), r1 _ _ _ hl]
          exact ⟨by omega, trivial⟩
        · simp only [if_neg (hlt _ _ _ hr), r1 _ _ _ hr]
          exact ⟨by omega, trivial⟩
      · rw [if_neg e] at hk
        have key : k < heap.length ∧ rk t = rk k + 1 := by
          by_cases c1 : t = lp
          · rw [if_pos c1] at hk
            rw [c1, r1 _ _ _ hl, ← r1 _ _ _ hr]
            exact r2 _ c k hc hk
          · rw [if_neg c1] at hk
            by_cases c2 : t = rp
            · rw [if_pos c2] at hk
              rw [c2, r1 _ _ _ hr, ← r1 _ _ _ hl]
              exact r2 _ c k hc hk
            · rw [if_neg c2] at hk
              exact r2 _ c k hc hk
        simp only [if_neg e, if_neg (show ¬ k = new by omega)]
        exact ⟨by omega, key.2⟩
  · intro r y hy
    have hyz : ¬ (r = q + 1 ∧ y = z) := by
      rintro ⟨rfl, rfl⟩
      unfold mergeRt at hy
      rw [if_neg (by omega), if_pos ⟨rfl, rfl⟩] at hy
      simp at hy
    rw [upd_ne hyz]
    by_cases hc : r = q ∧ y / 2 = z
    · obtain ⟨rfl, hy2⟩ := hc
      rw [hy2]
      have hh : holder (mergeRt rt r z) (upd A (r + 1) z (some new)) (r + 1) z = some new := by
        rw [holder_root mergeRt_new, upd_self]
      rw [hh, hnz _ _ (by omega), if_pos rfl]
      rcases Nat.mod_two_eq_zero_or_one y with h | h
      · have : y = 2 * z := by omega
        rw [this, hl]; simp
      · have : y = 2 * z + 1 := by omega
        rw [this, hr]; simp
    · have hrt : rt r y = false := by
        unfold mergeRt at hy
        rw [if_neg hc, if_neg hyz] at hy
        exact hy
      rw [s.kids r y hrt]
      by_cases hq : r + 1 = q
      · -- the row of the joined nodes
        subst hq
        by_cases hz1 : y / 2 / 2 = z
        · rcases Nat.mod_two_eq_zero_or_one (y / 2) with h | h
          · have e : y / 2 = 2 * z := by omega
            have hh : holder (mergeRt rt (r + 1) z) (upd A (r + 1 + 1) z (some new)) (r + 1) (y / 2) = some rp := by
              rw [holder_sib (mergeRt_low hz1) (mergeRt_low (by rw [sb_div]; exact hz1)), e, xor_one_even,
                upd_ne (by omega), hr]
            have hh0 : holder rt A (r + 1) (y / 2) = some lp := by
              unfold holder; rw [e, if_pos tl, hl]
            rw [hh, hh0, nzr _ (by omega)]
          · have e : y / 2 = 2 * z + 1 := by omega
            have hh : holder (mergeRt rt (r + 1) z) (upd A (r + 1 + 1) z (some new)) (r + 1) (y / 2) = some lp := by
              rw [holder_sib (mergeRt_low hz1) (mergeRt_low (by rw [sb_div]; exact hz1)), e, xor_one_odd,
                upd_ne (by omega), hl]
            have hh0 : holder rt A (r + 1) (y / 2) = some rp := by
              unfold holder; rw [e, if_pos tr, hr]
            rw [hh, hh0, nzl _ (by omega)]
        · have hh : holder (mergeRt rt (r + 1) z) (upd A (r + 1 + 1) z (some new)) (r + 1) (y / 2) =
              holder rt A (r + 1) (y / 2) := by
            have hs := sb_div (y / 2)
            exact holder_congr (mergeRt_other (by omega) (by omega)) (mergeRt_other (by omega) (by omega))
              (upd_ne (by omega)) (upd_ne (by omega))
          rw [hh]
          cases hp : holder rt A (r + 1) (y / 2) with
          | none => rfl
          | some p =>
            refine Eq.symm ?_
            rcases holder_some hp with ⟨_, h⟩ | ⟨_, _, h⟩
            · exact nzo _ _ _ _ h (by omega) (by omega)
            · exact nzo _ _ _ _ h (by rw [sb_div]; omega) (by omega)
      · by_cases hq2 : r + 1 = q + 1
        · have : r = q := by omega
          subst this
          -- the row of the new node
          have hh : nz heap' (holder (mergeRt rt r z) (upd A (r + 1) z (some new)) (r + 1) (y / 2)) (y % 2) =
              nz heap' (holder rt A (r + 1) (y / 2)) (y % 2) := by
            congr 1
            unfold holder
            have e1 : mergeRt rt r z (r + 1) (y / 2) = rt (r + 1) (y / 2) := by
              unfold mergeRt
              rw [if_neg (by omega), if_neg (by tauto)]
            rw [e1, upd_ne (by tauto)]
            by_cases h1 : rt (r + 1) (y / 2) = true
            · rw [if_pos h1, if_pos h1]
            · rw [if_neg h1, if_neg h1]
              by_cases h2 : y / 2 ^^^ 1 = z
              · rw [h2, an]
                have e2 : mergeRt rt r z (r + 1) z = true := by
                  unfold mergeRt
                  rw [if_neg (by omega), if_pos ⟨rfl, rfl⟩]
                rw [e2, tp]; simp
              · have e2 : mergeRt rt r z (r + 1) (y / 2 ^^^ 1) = rt (r + 1) (y / 2 ^^^ 1) := by
                  unfold mergeRt
                  rw [if_neg (by omega), if_neg (by tauto)]
                rw [e2, upd_ne (by tauto)]
          rw [hh]
          cases hp : holder rt A (r + 1) (y / 2) with
          | none => rfl
          | some p =>
            obtain ⟨j, hj⟩ := holder_addr hp
            exact (nzo _ _ _ _ hj (by omega) (by omega)).symm
        · have hh : holder (mergeRt rt q z) (upd A (q + 1) z (some new)) (r + 1) (y / 2) =
              holder rt A (r + 1) (y / 2) := by
            exact holder_congr (mergeRt_other (by omega) (by omega)) (mergeRt_other (by omega) (by omega))
              (upd_ne (by omega)) (upd_ne (by omega))
          rw [hh]
          cases hp : holder rt A (r + 1) (y / 2) with
          | none => rfl
          | some p =>
            obtain ⟨j, hj⟩ := holder_addr hp
            exact (nzo _ _ _ _ hj (by omega) (by omega)).symm
  · intro r i r' i' t h1 h2
    by_cases e1 : r = q + 1 ∧ i = z
    · by_cases e2 : r' = q + 1 ∧ i' = z
      · omega
      · obtain ⟨rfl, rfl⟩ := e1
        rw [upd_self] at h1
        rw [upd_ne e2] at h2
        injection h1 with h1
        exact absurd h1.symm (hlt _ _ _ h2)
    · rw [upd_ne e1] at h1
      by_cases e2 : r' = q + 1 ∧ i' = z
      · obtain ⟨rfl, rfl⟩ := e2
        rw [upd_self] at h2
        injection h2 with h2
        exact absurd h2.symm (hlt _ _ _ h1)
      · rw [upd_ne e2] at h2
        exact s.inj _ _ _ _ _ h1 h2
  · intro r i t h1
    rw [hlen]
    by_cases e1 : r = q + 1 ∧ i = z
    · obtain ⟨rfl, rfl⟩ := e1
      rw [upd_self] at h1
      injection h1 with h1
      omega
    · rw [upd_ne e1] at h1
      have := s.bnd _ _ _ h1
      omega
  · intro i
    rw [upd_ne (by omega)]
    cases hh : A 0 i with
    | none => simp [nz]
    | some t =>
      by_cases hc : 0 = q ∧ i / 2 = z
      · obtain ⟨rfl, hc⟩ := hc
        rcases Nat.mod_two_eq_zero_or_one i with h | h
        · have : i = 2 * z := by omega
          rw [this, hl] at hh
          injection hh with hh
          rw [← hh, nzl _ (by omega), nzl _ (by omega), ← hr]; exact s.leaf _
        · have : i = 2 * z + 1 := by omega
          rw [this, hr] at hh
          injection hh with hh
          rw [← hh, nzr _ (by omega), nzr _ (by omega), ← hl]; exact s.leaf _
      · rw [nzo _ _ _ _ hh hc (by omega), nzo _ _ _ _ hh hc (by omega), ← hh]
        exact s.leaf _
  · intro r i h
    by_cases e1 : r = q + 1 ∧ i = z
    · obtain ⟨rfl, rfl⟩ := e1
      rw [upd_self]; rfl
    · rw [upd_ne e1]
      apply s.root
      unfold mergeRt at h
      split at h
      · simp at h
      · exact h

/-- A new root without anything below. -/
theorem Shape.newRoot {heap : List (INode H)} {rt : ℕ → ℕ → Bool} {A : Addr} (s : Shape heap rt A)
    {i : ℕ} {x : INode H} (tp : rt 0 i = false) (an : A 0 i = none) (h0 : 0 < heap.length)
    (hx : x.n1 = none ∧ (x.n0 = none ∨ x.n0 = some 0)) :
    Shape (heap ++ [x]) (fun r y => if r = 0 ∧ y = i then true else rt r y) (upd A 0 i (some heap.length)) := by
  have hlt : ∀ r i p, A r i = some p → p < heap.length := fun r i p h => (s.bnd r i p h).2
  have hg : (heap ++ [x])[heap.length]? = some x := by simp
  refine ⟨?_, ?_, ?_, ?_, ?_, ?rank⟩
  case rank =>
    obtain ⟨rk, r0, r1, r2⟩ := s.rank
    refine ⟨fun t => if t = heap.length then 1 else rk t, by simp only [if_neg (show ¬ 0 = heap.length by omega), r0],
      fun r j t h => ?_, fun t c k hc hk => ?_⟩
    · by_cases e : r = 0 ∧ j = i
      · obtain ⟨rfl, rfl⟩ := e
        rw [upd_self] at h
        injection h with h
        simp only [← h, if_true]
      · rw [upd_ne e] at h
        have := hlt _ _ _ h
        simp only [if_neg (show ¬ t = heap.length by omega), r1 _ _ _ h]
    · rw [List.length_append, List.length_singleton]
      rcases Nat.lt_trichotomy t heap.length with h | h | h
      · rw [nz_append h] at hk
        have := r2 t c k hc hk
        simp only [if_neg (show ¬ t = heap.length by omega), if_neg (show ¬ k = heap.length by omega)]
        exact ⟨by omega, this.2⟩
      · rw [h, nz_some hg] at hk
        have hk0 : k = 0 := by
          unfold INode.niece at hk
          split at hk
          · rcases hx.2 with e | e <;> rw [e] at hk <;> simp at hk
            exact hk.symm
          · rw [hx.1] at hk; simp at hk
        subst hk0
        simp only [if_pos h, if_neg (show ¬ 0 = heap.length by omega), r0]
        exact ⟨by omega, trivial⟩
      · unfold nz at hk
        rw [Option.bind_some, List.getElem?_eq_none (by simp; omega)] at hk
        simp at hk
  · intro r y hy
    have hne : ¬ (r = 0 ∧ y = i) := by
      intro h; simp [h] at hy
    rw [upd_ne hne, holder_upd_row (by omega)]
    have hh : holder (fun r y => if r = 0 ∧ y = i then true else rt r y) A (r + 1) (y / 2) =
        holder rt A (r + 1) (y / 2) := by unfold holder; simp
    rw [hh, s.kids r y (by simpa [hne] using hy)]
    cases hp : holder rt A (r + 1) (y / 2) with
    | none => rfl
    | some p =>
      obtain ⟨j, hj⟩ := holder_addr hp
      rw [nz_append (hlt _ _ _ hj)]
  · intro r j r' j' t h1 h2
    by_cases e1 : r = 0 ∧ j = i
    · by_cases e2 : r' = 0 ∧ j' = i
      · omega
      · obtain ⟨rfl, rfl⟩ := e1
        rw [upd_self] at h1
        rw [upd_ne e2] at h2
        injection h1 with h1
        have := hlt _ _ _ h2; omega
    · rw [upd_ne e1] at h1
      by_cases e2 : r' = 0 ∧ j' = i
      · obtain ⟨rfl, rfl⟩ := e2
        rw [upd_self] at h2
        injection h2 with h2
        have := hlt _ _ _ h1; omega
      · rw [upd_ne e2] at h2
        exact s.inj _ _ _ _ _ h1 h2
  · intro r j t h1
    rw [List.length_append, List.length_singleton]
    by_cases e1 : r = 0 ∧ j = i
    · obtain ⟨rfl, rfl⟩ := e1
      rw [upd_self] at h1
      injection h1 with h1
      omega
    · rw [upd_ne e1] at h1
      have := s.bnd _ _ _ h1
      omega
  · intro j
    by_cases e1 : j = i
    · subst e1
      rw [upd_self, nz_some hg, nz_some hg]
      exact hx
    · rw [upd_ne (by tauto)]
      cases hh : A 0 j with
      | none => simp [nz]
      | some t =>
        rw [nz_append (hlt _ _ _ hh), nz_append (hlt _ _ _ hh), ← hh]
        exact s.leaf j
  · intro r j h
    by_cases e1 : r = 0 ∧ j = i
    · obtain ⟨rfl, rfl⟩ := e1
      rw [upd_self]; rfl
    · rw [upd_ne e1]
      exact s.root r j (by simpa [e1] using h)

end Pol
end Utreexo
