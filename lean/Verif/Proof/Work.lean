import Verif.Model.Work
import Verif.Proof.PrintPlaces
import Verif.Proof.Tail
import Mathlib.Data.Nat.Digits.Defs

/-! # Counted calls -/

set_option linter.unusedSectionVars false

namespace Utreexo
open Spec Equiv

/-- Both computations fail in the same way, or both succeed with related results. -/
inductive Follows {α β : Type} (R : α → β → Prop) : Res α → Res β → Prop
  | ok {a : α} {b : β} : R a b → Follows R (.ok a) (.ok b)
  | error (e : Fault) : Follows R (.error e) (.error e)

namespace Follows
variable {α β γ δ : Type} {R : α → β → Prop} {S : γ → δ → Prop}

theorem pure {a : α} {b : β} (h : R a b) : Follows R (Pure.pure a) (Pure.pure b) := .ok h

theorem bind {x : Res α} {y : Res β} {f : α → Res γ} {g : β → Res δ} (h : Follows R x y)
    (hf : ∀ a b, R a b → Follows S (f a) (g b)) : Follows S (x >>= f) (y >>= g) := by
  cases h with
  | ok h => exact hf _ _ h
  | error e => exact .error e

theorem seq {x : Res α} {f : α → Res γ} {g : α → Res δ} (hf : ∀ a, Follows S (f a) (g a)) : Follows S (x >>= f) (x >>= g) := by
  cases x with
  | ok a => exact hf a
  | error e => exact .error e

theorem seqAfter {x : Res α} {f : α → Res γ} {g : α → Res δ} {Q : α → Prop} (hx : After x Q)
    (hf : ∀ a, Q a → Follows S (f a) (g a)) : Follows S (x >>= f) (x >>= g) := by
  cases x with
  | ok a => exact hf a (hx a rfl)
  | error e => exact .error e

theorem mono {R' : α → β → Prop} {x : Res α} {y : Res β} (h : Follows R x y) (hR : ∀ a b, R a b → R' a b) : Follows R' x y := by
  cases h with
  | ok h => exact .ok (hR _ _ h)
  | error e => exact .error e

theorem ite {c : Prop} [Decidable c] {x x' : Res α} {y y' : Res β} (h1 : c → Follows R x y) (h2 : ¬ c → Follows R x' y') :
    Follows R (if c then x else x') (if c then y else y') := by
  split
  · exact h1 ‹_›
  · exact h2 ‹_›

theorem left {x : Res α} {y : Res β} (h : Follows R x y) {b : β} (hy : y = .ok b) : ∃ a, x = .ok a ∧ R a b := by
  cases h with
  | ok h => cases hy; exact ⟨_, rfl, h⟩
  | error e => cases hy

end Follows

variable {H : Type} [DecidableEq H] [HashOps H]

/-! ## Ones in the binary expansion -/

/-- Number of ones. -/
def ones (n : ℕ) : ℕ := (Nat.digits 2 n).sum

theorem ones_step (n : ℕ) : ones n = n % 2 + ones (n / 2) := by
  unfold ones
  rcases Nat.eq_zero_or_pos n with h | h
  · subst h; simp
  · rw [Nat.digits_def' (by omega) h]; simp

theorem ones_loop : ∀ k n : ℕ, n < 2 ^ k → St.popcountLoop k n = ones n := by
  intro k
  induction k with
  | zero => intro n h; obtain rfl : n = 0 := by omega
            rfl
  | succ k ih =>
    intro n h
    rw [St.popcountLoop, ones_step, ih]
    rw [pow_succ] at h; omega

theorem ones_trees {n : ℕ} (h : n < 2 ^ 64) : (treeRows n 64).length = ones n := by
  rw [treeRows_length, ← popcountLoop_eq, ones_loop 64 n h]

namespace Acc
variable {N X : Type} {vt : VT H N X}

theorem plain_withWork (s : Acc H N X) (w : Work) : (s.withWork w).plain = s := rfl

theorem withWork_plain (s : Acc H N (X × Work)) : s.plain.withWork s.ext.2 = s := rfl

/-! ## Adding -/

theorem mergeLoop_work (P : Places vt) (cs : ℕ) : ∀ (fuel row : ℕ) (root : ℤ) (nr : N) (s : Acc H N X) (w : Work),
    Follows (fun a b => ∃ m, a = b.withWork { w with merges := w.merges + m } ∧ b.numLeaves = s.numLeaves ∧
        m + ones (cs / 2 ^ row + 1) = ones (cs / 2 ^ row) + 1)
      (mergeLoop (counted vt) cs fuel row root nr (s.withWork w)) (mergeLoop vt cs fuel row root nr s) := by
  intro fuel
  induction fuel with
  | zero => intro _ _ _ _ _; exact .error _
  | succ fuel ih =>
    intro row root nr s w
    rw [mergeLoop, mergeLoop]
    refine Follows.seqAfter (Q := fun b => b = (cs / 2 ^ row % 2 == 1)) ?_ fun b hb => ?_
    · intro b hb
      unfold St.hasRoot shr64 at hb
      split at hb
      · rw [ok_bind, pure_ok] at hb
        cases hb
        rw [Nat.and_one_is_mod, Nat.shiftRight_eq_div_pow]
        rcases Nat.mod_two_eq_zero_or_one (cs / 2 ^ row) with h | h <;> simp [h]
      · cases hb
    · have hd : cs / 2 ^ row / 2 = cs / 2 ^ (row + 1) := by rw [Nat.div_div_eq_div_mul, ← pow_succ]
      have h1 := ones_step (cs / 2 ^ row)
      have h2 := ones_step (cs / 2 ^ row + 1)
      rw [hd] at h1
      rcases Nat.mod_two_eq_zero_or_one (cs / 2 ^ row) with h | h
      · rw [h] at hb
        subst hb
        refine Follows.ok ⟨0, rfl, rfl, ?_⟩
        rw [show (cs / 2 ^ row + 1) / 2 = cs / 2 ^ row / 2 by omega, hd] at h2
        omega
      · rw [h] at hb
        subst hb
        rw [show (cs / 2 ^ row + 1) / 2 = cs / 2 ^ row / 2 + 1 by omega, hd] at h2
        simp only [beq_self_eq_true, if_true]
        refine Follows.seq (x := rootAt s root) fun l => Follows.seq (x := vt.nodeHash s l) fun lh => Follows.seq (x := vt.nodeHash s nr) fun rh =>
          Follows.seq fun pp => ?_
        refine Follows.bind (R := fun a b => a = (b.1, b.2.withWork { w with merges := w.merges + 1 }) ∧ b.2.numLeaves = s.numLeaves) ?_ fun a b hab => ?_
        · show Follows _ (vt.mergeRoot s pp (HashOps.ph lh rh) >>= _) _
          have := P.merge s pp (HashOps.ph lh rh)
          revert this
          cases vt.mergeRoot s pp (HashOps.ph lh rh) with
          | error e => intro _; exact .error e
          | ok r => intro h; exact .ok ⟨rfl, (h r rfl).2.1⟩
        · obtain ⟨rfl, hnum⟩ := hab
          refine (ih (row + 1) (root - 1) b.1 b.2 _).mono ?_
          rintro a c ⟨m, rfl, hc, hm⟩
          refine ⟨m + 1, ?_, hc.trans hnum, by omega⟩
          simp only [Nat.add_assoc, Nat.add_comm 1 m]

theorem addOne_work (P : Places vt) (s : Acc H N X) (l : Leaf H) (w : Work) (hn : s.numLeaves + 1 < 2 ^ 64) :
    Follows (fun a b => ∃ m, a = b.withWork { w with leaves := w.leaves + 1, merges := w.merges + m } ∧
        b.numLeaves = s.numLeaves + 1 ∧ m + ones (s.numLeaves + 1) = ones s.numLeaves + 1)
      (addOne (counted vt) (s.withWork w) l) (addOne vt s l) := by
  unfold addOne
  refine Follows.bind (R := fun a b => a = (b.1, b.2.withWork { w with leaves := w.leaves + 1 }) ∧ b.2.numLeaves = s.numLeaves) ?_
    fun a b hab => ?_
  · show Follows _ (vt.newLeaf s l >>= _) _
    have := P.leaf s l
    revert this
    cases vt.newLeaf s l with
    | error e => intro _; exact .error e
    | ok r => intro h; exact .ok ⟨rfl, (h r rfl).2.1⟩
  obtain ⟨rfl, hnum⟩ := hab
  refine Follows.bind (mergeLoop_work P s.numLeaves 66 0 _ b.1 b.2 _) ?_
  rintro a c ⟨m, rfl, hc, hm⟩
  simp only [pow_zero, Nat.div_one] at hm
  have hw : wrap64 (c.numLeaves + 1) = s.numLeaves + 1 := by
    rw [hc, hnum]; unfold wrap64; exact Nat.mod_eq_of_lt hn
  refine Follows.ite (fun _ => ?_) fun _ => ?_
  · exact .ok ⟨m, rfl, hw, hm⟩
  · dsimp only [withWork]
    cases c.roots with
    | nil => exact .error _
    | cons r0 rs =>
      cases rs with
      | nil => exact .error _
      | cons r1 rest =>
        refine Follows.seq fun p0 => Follows.seq fun p1 => .ok ⟨m, rfl, hw, hm⟩

theorem add_work (P : Places vt) : ∀ (ls : List (Leaf H)) (s : Acc H N X) (w : Work), s.numLeaves + ls.length < 2 ^ 64 →
    Follows (fun a b => ∃ m, a = b.withWork { w with leaves := w.leaves + ls.length, merges := w.merges + m } ∧
        b.numLeaves = s.numLeaves + ls.length ∧ m + ones (s.numLeaves + ls.length) = ones s.numLeaves + ls.length)
      (add (counted vt) (s.withWork w) ls) (add vt s ls) := by
  intro ls
  induction ls with
  | nil => intro s w _; exact .ok ⟨0, rfl, rfl, by simp⟩
  | cons l ls ih =>
    intro s w hn
    simp only [List.length_cons] at hn ⊢
    unfold add
    rw [List.foldlM_cons, List.foldlM_cons]
    refine Follows.bind (addOne_work P s l w (by omega)) ?_
    rintro a b ⟨m, rfl, hb, hm⟩
    refine (ih b _ (by omega)).mono ?_
    rintro c d ⟨k, rfl, hd, hk⟩
    rw [hb] at hd hk
    rw [show s.numLeaves + 1 + ls.length = s.numLeaves + (ls.length + 1) by omega] at hd hk
    refine ⟨m + k, ?_, hd, by omega⟩
    simp only [Nat.add_assoc, Nat.add_comm 1 ls.length]

/-! ## Deleting -/

theorem updatePosSubtree_work (s : Acc H N X) (w : Work) (a b : ℕ) :
    Follows (fun x y => x = y.withWork w) (updatePosSubtree (counted vt) (s.withWork w) a b) (updatePosSubtree vt s a b) := by
  unfold updatePosSubtree
  refine Follows.seq fun _ => Follows.seq fun _ => Follows.seq fun _ => Follows.seq fun _ => ?_
  unfold updatePosRange
  refine Follows.ite (fun _ => ?_) fun _ => ?_
  · exact .ok rfl
  · exact Follows.seq (x := vt.readLeafRange s _ _) fun _ => Follows.seq (x := vt.readLeafRange s _ _) fun _ => .ok rfl

/-- The swaps that leave dirt. -/
def dirtOf (sws : List St.Swap) : ℕ := (sws.filter fun sw => !sw.collapse).length

theorem runSwaps_work : ∀ (sws : List St.Swap) (s : Acc H N X) (w : Work) (dirty : List (Option N)),
    Follows (fun x y => x = (y.1.withWork { w with swaps := w.swaps + sws.length }, y.2) ∧ y.2.length = dirty.length + dirtOf sws)
      (runSwaps (counted vt) sws (s.withWork w) dirty) (runSwaps vt sws s dirty) := by
  intro sws
  induction sws with
  | nil => intro s w dirty; exact .ok ⟨rfl, rfl⟩
  | cons sw sws ih =>
    intro s w dirty
    rw [runSwaps, runSwaps]
    refine Follows.bind (updatePosSubtree_work s w _ _) ?_
    rintro a b rfl
    refine Follows.bind (R := fun x y => x = (y.1, y.2.withWork { w with swaps := w.swaps + 1 })) ?_ ?_
    · show Follows _ (vt.swapSubTrees b _ _ >>= _) _
      cases vt.swapSubTrees b sw.src sw.dst with
      | error e => exact .error e
      | ok r => exact .ok rfl
    · rintro x y rfl
      refine (ih y.2 _ _).mono ?_
      rintro c d ⟨rfl, hd⟩
      refine ⟨?_, ?_⟩
      · simp only [List.length_cons, Nat.add_assoc, Nat.add_comm 1 sws.length]
      · rw [hd]
        unfold dirtOf
        cases hc : sw.collapse <;> simp [hc]
        omega

theorem rehashDirty_work (cs : ℕ) : ∀ (ds : List (Option N)) (s : Acc H N X) (w : Work) (next : List N),
    Follows (fun x y => x = (y.1.withWork { w with rehashes := w.rehashes + ds.length }, y.2) ∧ y.2.length ≤ next.length + ds.length)
      (rehashDirty (counted vt) cs ds (s.withWork w) next) (rehashDirty vt cs ds s next) := by
  intro ds
  induction ds with
  | nil => intro s w next; exact .ok ⟨rfl, le_rfl⟩
  | cons d ds ih =>
    intro s w next
    cases d with
    | none => exact .error _
    | some d =>
      rw [rehashDirty, rehashDirty]
      refine Follows.bind (R := fun x y => x = y.withWork { w with rehashes := w.rehashes + 1 }) ?_ ?_
      · show Follows _ (vt.nodeReHash s d >>= _) _
        cases vt.nodeReHash s d with
        | error e => exact .error e
        | ok r => exact .ok rfl
      rintro a s1 rfl
      have step : ∀ next' : List N, next'.length ≤ next.length + 1 →
          Follows (fun x y => x = (y.1.withWork { w with rehashes := w.rehashes + (some d :: ds).length }, y.2) ∧
              y.2.length ≤ next.length + (some d :: ds).length)
            (rehashDirty (counted vt) cs ds (s1.withWork { w with rehashes := w.rehashes + 1 }) next') (rehashDirty vt cs ds s1 next') := by
        intro next' hl
        refine (ih s1 _ next').mono ?_
        rintro x y ⟨rfl, hy⟩
        simp only [List.length_cons]
        refine ⟨?_, by omega⟩
        simp only [Nat.add_assoc, Nat.add_comm 1 ds.length]
      have key : ∀ push : Bool, Follows (fun x y => x = (y.1.withWork { w with rehashes := w.rehashes + (some d :: ds).length }, y.2) ∧
              y.2.length ≤ next.length + (some d :: ds).length)
          (if push = true then do
            match ← (counted vt).nodeParent (s1.withWork { w with rehashes := w.rehashes + 1 }) d with
            | some p => rehashDirty (counted vt) cs ds (s1.withWork { w with rehashes := w.rehashes + 1 }) (next ++ [p])
            | none => rehashDirty (counted vt) cs ds (s1.withWork { w with rehashes := w.rehashes + 1 }) next
          else rehashDirty (counted vt) cs ds (s1.withWork { w with rehashes := w.rehashes + 1 }) next)
          (if push = true then do
            match ← vt.nodeParent s1 d with
            | some p => rehashDirty vt cs ds s1 (next ++ [p])
            | none => rehashDirty vt cs ds s1 next
          else rehashDirty vt cs ds s1 next) := by
        intro push
        cases push with
        | false => exact step next (by omega)
        | true =>
          refine Follows.seq (x := vt.nodeParent s1 d) fun p => ?_
          cases p with
          | none => exact step next (by omega)
          | some p => exact step _ (by simp)
      dsimp only
      cases next.getLast? with
      | none => exact Follows.seq fun push => key push
      | some l => exact Follows.seq fun _ => Follows.seq fun push => key push

/-- Sum of a count over rows. -/
def rowSum (f : List St.Swap → ℕ) (sws : List (List St.Swap)) : ℕ := (sws.map f).sum

theorem rowSum_step (f : List St.Swap → ℕ) (hf : f [] = 0) (sws : List (List St.Swap)) :
    rowSum f sws = f (sws.headD []) + rowSum f sws.tail := by
  cases sws <;> simp [rowSum, hf]

theorem removeRows_work (cs : ℕ) : ∀ (k : ℕ) (sws : List (List St.Swap)) (s : Acc H N X) (w : Work) (dirty : List N),
    sws.length ≤ k →
    Follows (fun x y => ∃ m, x = (y.1.withWork { w with swaps := w.swaps + rowSum List.length sws, rehashes := w.rehashes + m }, y.2) ∧
        m ≤ k * (dirty.length + rowSum dirtOf sws))
      (removeRows (counted vt) cs k sws (s.withWork w) dirty) (removeRows vt cs k sws s dirty) := by
  intro k
  induction k with
  | zero =>
    intro sws s w dirty hl
    obtain rfl : sws = [] := List.eq_nil_of_length_eq_zero (by omega)
    exact .ok ⟨0, rfl, by omega⟩
  | succ k ih =>
    intro sws s w dirty hl
    rw [removeRows, removeRows]
    refine Follows.bind (runSwaps_work _ s w _) ?_
    rintro a b ⟨rfl, hb⟩
    refine Follows.bind (rehashDirty_work cs _ b.1 _ []) ?_
    rintro c d ⟨rfl, hd⟩
    refine (ih sws.tail d.1 _ d.2 (by rw [List.length_tail]; omega)).mono ?_
    rintro x y ⟨m, rfl, hm⟩
    rw [List.length_map] at hb
    rw [List.length_nil, Nat.zero_add] at hd
    refine ⟨b.2.length + m, ?_, ?_⟩
    · rw [rowSum_step List.length rfl sws]
      simp only [Nat.add_assoc]
    · rw [rowSum_step dirtOf rfl sws]
      have h1 : k * (d.2.length + rowSum dirtOf sws.tail) ≤ k * (dirty.length + (dirtOf (sws.headD []) + rowSum dirtOf sws.tail)) :=
        Nat.mul_le_mul_left k (by omega)
      rw [Nat.add_mul, Nat.one_mul]
      omega

end Acc

/-! ## The number of swaps -/

theorem idxNext_length : ∀ (k : ℕ) (l : List ℕ) (c : ℕ), l.length ≤ k →
    ∃ t, l.length = 2 * t + (idxNext l c).2.length ∧ (idxNext l c).1.length = t + (c % 2 + (idxNext l c).2.length) / 2 := by
  intro k
  induction k with
  | zero =>
    intro l c hl
    obtain rfl : l = [] := List.eq_nil_of_length_eq_zero (by omega)
    exact ⟨0, rfl, by simp only [idxNext, List.length_nil]; omega⟩
  | succ k ih =>
    intro l c hl
    rcases l with _ | ⟨a, _ | ⟨b, rest⟩⟩
    · exact ⟨0, rfl, by simp only [idxNext, List.length_nil]; omega⟩
    · refine ⟨0, ?_⟩
      simp only [idxNext]
      split <;> refine ⟨?_, ?_⟩ <;> simp only [List.length_cons, List.length_nil] <;> omega
    · simp only [List.length_cons] at hl
      simp only [idxNext]
      split
      · obtain ⟨t, h1, h2⟩ := ih rest c (by omega)
        refine ⟨t + 1, ?_, ?_⟩ <;> simp only [List.length_cons] <;> omega
      · obtain ⟨t, h1, h2⟩ := ih (b :: rest) (c + 1) (by simp only [List.length_cons]; omega)
        simp only [List.length_cons] at h1
        split <;> refine ⟨t, ?_, ?_⟩ <;> simp only [List.length_cons] <;> omega

theorem idxPairs_length : ∀ (k : ℕ) (l : List ℕ), l.length ≤ k → (idxPairs l).length = l.length / 2 := by
  intro k
  induction k with
  | zero =>
    intro l hl
    obtain rfl : l = [] := List.eq_nil_of_length_eq_zero (by omega)
    rfl
  | succ k ih =>
    intro l hl
    rcases l with _ | ⟨a, _ | ⟨b, rest⟩⟩
    · rfl
    · simp [idxPairs]
    · simp only [List.length_cons] at hl
      simp only [idxPairs, List.length_cons]
      rw [ih rest (by omega)]
      omega

theorem sortU64_length (l : List ℕ) : (St.sortU64 l).length = l.length := by
  have ins : ∀ (x : ℕ) (l : List ℕ), (St.insertSorted x l).length = l.length + 1 := by
    intro x l
    induction l with
    | nil => rfl
    | cons y ys ih =>
      simp only [St.insertSorted]
      split
      · rfl
      · simp only [List.length_cons, ih]
  induction l with
  | nil => rfl
  | cons x xs ih => rw [St.sortU64, ins, ih]; rfl

/-- Every swap of a row that leaves dirt uses up a deletion. -/
theorem Sn_length (n : ℕ) (D : List ℕ) (r : ℕ) : (Sn n D r).length + (Dn n D (r + 1)).length ≤ (Dn n D r).length := by
  obtain ⟨t, h1, h2⟩ := idxNext_length _ (rowTs (n / 2 ^ (r + 1)) (Dn n D r)) 0 le_rfl
  have h3 : (rowTs (n / 2 ^ (r + 1)) (Dn n D r)).length ≤ (Dn n D r).length := List.length_filter_le _ _
  show (rowS _ _ _).length + (St.sortU64 (rowNext _ _ _)).length ≤ _
  rw [sortU64_length]
  unfold rowS rowNext
  simp only [List.length_append]
  rw [idxPairs_length _ _ le_rfl]
  have h4 : (oddLast (idxNext (rowTs (n / 2 ^ (r + 1)) (Dn n D r)) 0).2).length = (idxNext (rowTs (n / 2 ^ (r + 1)) (Dn n D r)) 0).2.length % 2 := by
    unfold oddLast
    split
    · simp only [List.length_nil]; omega
    · simp only [List.length_cons, List.length_nil]; omega
  split <;> simp only [List.length_map, List.length_nil, h4] <;> omega

theorem dirtOf_posOps (R r n n' : ℕ) (D : List ℕ) (ρ : Perm ℕ) : Acc.dirtOf (posOps R r (opsAt n n' D r ρ)) = (Sn n D r).length ∧
    (posOps R r (opsAt n n' D r ρ)).length ≤ (Sn n D r).length + 1 := by
  unfold Acc.dirtOf posOps opsAt
  cases Xn n D r with
  | none => simp [List.filter_map, Function.comp_def]
  | some x => 
    simp only
    split <;> simp [List.filter_map, Function.comp_def]

theorem transform_counts {n : ℕ} (hn : n ≤ 2 ^ 62) {D : List ℕ} (hs : D.Pairwise (· < ·)) (hb : ∀ i ∈ D, i < n)
    {sws : List (List St.Swap)} (h : St.transform n D = .ok sws) :
    sws.length ≤ St.numRows n ∧ Acc.rowSum Acc.dirtOf sws ≤ D.length ∧ Acc.rowSum List.length sws ≤ D.length + sws.length := by
  rw [transform_eq hn hs hb] at h
  cases h
  have key : ∀ (k r : ℕ) (g : ℕ → Perm ℕ),
      Acc.rowSum Acc.dirtOf ((List.range' r k).map fun c => posOps (St.numRows n) c (opsAt n (n - D.length) D c (g c))) ≤ (Dn n D r).length ∧
      Acc.rowSum List.length ((List.range' r k).map fun c => posOps (St.numRows n) c (opsAt n (n - D.length) D c (g c))) ≤
        (Dn n D r).length + k := by
    intro k
    induction k with
    | zero => intro r g; exact ⟨Nat.zero_le _, Nat.zero_le _⟩
    | succ k ih =>
      intro r g
      obtain ⟨h1, h2⟩ := ih (r + 1) g
      obtain ⟨h3, h4⟩ := dirtOf_posOps (St.numRows n) r n (n - D.length) D (g r)
      have h5 := Sn_length n D r
      rw [List.range'_succ, List.map_cons]
      simp only [Acc.rowSum, List.map_cons, List.sum_cons] at h1 h2 ⊢
      omega
  obtain ⟨h1, h2⟩ := key (visited n D (St.numRows n) 0) 0 fun c => sg n (n - D.length) D (St.numRows n) (c + 1)
  refine ⟨?_, h1, ?_⟩
  · rw [List.length_map, List.length_range']; exact visited_le _ _ _ _
  · rw [List.length_map, List.length_range']; exact h2

namespace Acc
variable {N X : Type} {vt : VT H N X}

/-- What a deletion costs. -/
structure RemoveCost (n : ℕ) (targets : List ℕ) (w w' : Work) : Prop where
  leaves : w'.leaves = w.leaves
  merges : w'.merges = w.merges
  swaps : w.swaps ≤ w'.swaps ∧ w'.swaps ≤ w.swaps + (targets.length + St.numRows n)
  rehashes : w.rehashes ≤ w'.rehashes ∧ w'.rehashes ≤ w.rehashes + targets.length * St.numRows n
  tail : ∀ m, m ≤ n → targets = List.range' m (n - m) → w' = w

theorem RemoveCost.same (n : ℕ) (targets : List ℕ) (w : Work) : RemoveCost n targets w w :=
  ⟨rfl, rfl, ⟨le_rfl, Nat.le_add_right _ _⟩, ⟨le_rfl, Nat.le_add_right _ _⟩, fun _ _ _ => rfl⟩

theorem remove_work (P : Places vt) (s : Acc H N X) (w : Work) (targets : List ℕ) (hn : s.numLeaves ≤ 2 ^ 62) :
    Follows (fun x y => ∃ w', x = (y.1, y.2.withWork w') ∧ RemoveCost s.numLeaves targets w w' ∧
        (y.1 = false ∨ targets = [] → w' = w) ∧ (y.1 = true → targets.length ≤ s.numLeaves ∧ y.2.numLeaves = s.numLeaves - targets.length))
      (remove (counted vt) (s.withWork w) targets) (remove vt s targets) := by
  unfold remove
  refine Follows.ite (fun h0 => ?_) fun h0 => ?_
  · exact .ok ⟨w, rfl, .same _ _ _, fun _ => rfl, fun _ => ⟨by omega, by simp only; omega⟩⟩
  obtain ⟨b, hb1, hb2⟩ := C07_checkTargetsSanity s.numLeaves targets
  show Follows _ (St.checkTargetsSanity s.numLeaves targets >>= _) (St.checkTargetsSanity s.numLeaves targets >>= _)
  rw [hb1, ok_bind, ok_bind]
  cases b with
  | false => exact .ok ⟨w, rfl, .same _ _ _, fun _ => rfl, fun h => by cases h⟩
  | true =>
    obtain ⟨hs1, hs2⟩ := hb2.1 rfl
    have hlen : targets.length ≤ s.numLeaves := by
      have := sorted_length_add_le targets 0 s.numLeaves hs1 (fun x hx => ⟨Nat.zero_le _, hs2 x hx⟩) (Nat.zero_le _)
      omega
    simp only [Bool.not_true, Bool.false_eq_true, if_false]
    refine Follows.seqAfter (x := St.transform s.numLeaves targets) (fun sws e => And.intro (transform_counts hn hs1 hs2 e)
      (show ∀ m, m ≤ s.numLeaves → targets = List.range' m (s.numLeaves - m) → ∃ k, sws = List.replicate k [] from fun m hm hD => by
        obtain ⟨k, hk⟩ := Tail.transform hn hm
        rw [hD, hk] at e
        exact ⟨k, (Except.ok.inj e).symm⟩)) ?_
    rintro sws ⟨⟨h1, h2, h3⟩, htail⟩
    have hnum := removeRows_places P s.numLeaves (St.numRows s.numLeaves) sws s []
    have hf := removeRows_work (vt := vt) s.numLeaves (St.numRows s.numLeaves) sws s w [] h1
    revert hnum hf
    show _ → Follows _ (removeRows (counted vt) s.numLeaves (St.numRows s.numLeaves) sws (s.withWork w) []) _ → Follows _ (removeRows (counted vt) s.numLeaves (St.numRows s.numLeaves) sws (s.withWork w) [] >>= _) _
    generalize removeRows (counted vt) s.numLeaves (St.numRows s.numLeaves) sws (s.withWork w) [] = x
    generalize removeRows vt s.numLeaves (St.numRows s.numLeaves) sws s [] = y
    intro hnum hf
    cases hf with
    | error e => exact .error e
    | @ok a b hab =>
      obtain ⟨m, rfl, hm⟩ := hab
      have hb := hnum b rfl
      rw [ok_bind, ok_bind]
      refine Follows.seq fun _ => ?_
      refine Follows.bind (R := fun c d => c = d.withWork { w with swaps := w.swaps + rowSum List.length sws, rehashes := w.rehashes + m }) ?_ ?_
      · show Follows _ (vt.finalizeRemove b.1 (sub64 b.1.numLeaves targets.length) >>= _) _
        cases vt.finalizeRemove b.1 (sub64 b.1.numLeaves targets.length) with
        | error e => exact .error e
        | ok r => exact .ok rfl
      · rintro c d rfl
        refine .ok ⟨_, rfl, ⟨rfl, rfl, ⟨Nat.le_add_right _ _, ?_⟩, ⟨Nat.le_add_right _ _, ?_⟩, ?_⟩, ?_, ?_⟩
        · simp only; omega
        · simp only [List.length_nil, Nat.zero_add] at hm ⊢
          have := Nat.mul_le_mul_left (St.numRows s.numLeaves) h2
          rw [Nat.mul_comm targets.length]
          omega
        · intro m' hm' hD
          obtain ⟨k, rfl⟩ := htail m' hm' hD
          have e1 : ∀ (f : List St.Swap → ℕ) (k : ℕ), f [] = 0 → rowSum f (List.replicate k []) = 0 := by
            intro f k hf
            induction k with
            | zero => rfl
            | succ k ih => rw [rowSum_step f hf, List.replicate_succ, List.headD_cons, List.tail_cons, hf, ih]
          rw [e1 dirtOf k rfl, List.length_nil, Nat.zero_add, Nat.mul_zero] at hm
          rw [e1 List.length k rfl, Nat.le_zero.1 hm]
          rfl
        · rintro (h | h)
          · cases h
          · rw [h] at h0; exact absurd rfl h0
        · intro _
          refine ⟨hlen, ?_⟩
          show sub64 b.1.numLeaves targets.length = _
          rw [hb, sub64_ok hlen (by omega)]

/-- What a block costs. -/
structure BlockCost (n : ℕ) (ls : List (Leaf H)) (targets : List ℕ) (w w' : Work) : Prop where
  leaves : w'.leaves = w.leaves + ls.length
  merges : w'.merges + ones (n - targets.length + ls.length) = w.merges + (ones (n - targets.length) + ls.length)
  swaps : w.swaps ≤ w'.swaps ∧ w'.swaps ≤ w.swaps + (targets.length + St.numRows n)
  rehashes : w.rehashes ≤ w'.rehashes ∧ w'.rehashes ≤ w.rehashes + targets.length * St.numRows n
  idle : targets = [] → w'.swaps = w.swaps
  tail : ∀ m, m ≤ n → targets = List.range' m (n - m) → w'.swaps = w.swaps ∧ w'.rehashes = w.rehashes

theorem BlockCost.of {n m : ℕ} {leaves : List (Leaf H)} {targets : List ℕ} {w w1 : Work} (h : RemoveCost n targets w w1)
    (h0 : targets = [] → w1 = w) (hm : m + ones (n - targets.length + leaves.length) = ones (n - targets.length) + leaves.length) :
    BlockCost n leaves targets w { w1 with leaves := w1.leaves + leaves.length, merges := w1.merges + m } := by
  refine ⟨?_, ?_, h.swaps, h.rehashes, fun e => by rw [h0 e], fun m hm e => by rw [h.tail m hm e]; exact ⟨rfl, rfl⟩⟩
  · simp only [h.leaves]
  · simp only [h.merges]; omega

end Acc

theorem Pol.modify_work (s : Pollard H) (w : Work) (leaves : List (Leaf H)) (targets : List ℕ) (hn : s.numLeaves ≤ 2 ^ 62)
    (ht : s.numLeaves - targets.length + leaves.length ≤ 2 ^ 62) :
    Follows (fun x y => ∃ w', x = (y.1, y.2.withWork w') ∧ (y.1 = false → w' = w) ∧
        (y.1 = true → Acc.BlockCost s.numLeaves leaves targets w w'))
      (Pol.modifyC (s.withWork w) leaves targets) (Pol.modify s leaves targets) := by
  unfold Pol.modifyC Pol.modify Acc.modify
  refine Follows.bind (Acc.remove_work Pol.places s w targets hn) ?_
  rintro x ⟨b, s1⟩ ⟨w1, rfl, h1, h2, h3⟩
  cases b with
  | false => exact .ok ⟨w1, rfl, fun _ => h2 (.inl rfl), fun h => by cases h⟩
  | true =>
    obtain ⟨h4, h5⟩ := h3 rfl
    simp only at h5
    simp only [Bool.not_true, Bool.false_eq_true, if_false]
    refine Follows.bind (Acc.add_work Pol.places leaves s1 w1 (by rw [h5]; omega)) ?_
    rintro a c ⟨m, rfl, h6, h7⟩
    rw [h5] at h7
    exact .ok ⟨_, rfl, fun h => (by cases h), fun _ => Acc.BlockCost.of h1 (fun e => h2 (.inr e)) h7⟩

theorem Ram.modify_work (s : RamForest H) (w : Work) (leaves : List (Leaf H)) (targets : List ℕ) (hn : s.numLeaves ≤ 2 ^ 62)
    (ht : s.numLeaves - targets.length + leaves.length ≤ 2 ^ 62) :
    Follows (fun x y => ∃ w', x = (y.1, y.2.1, y.2.2.withWork w') ∧
        (y.1 = true → Acc.BlockCost s.numLeaves leaves targets w w'))
      (Ram.modifyC (s.withWork w) leaves targets) (Ram.modify s leaves targets) := by
  unfold Ram.modifyC Ram.modify
  refine Follows.bind (Acc.remove_work Ram.places s w targets hn) ?_
  rintro x ⟨b, s1⟩ ⟨w1, rfl, h1, h2, h3⟩
  cases b with
  | false => exact .ok ⟨w1, rfl, fun h => by cases h⟩
  | true =>
    obtain ⟨h4, h5⟩ := h3 rfl
    simp only at h5
    simp only [Bool.not_true, Bool.false_eq_true, if_false]
    refine Follows.seq (x := Ram.buildUndoBatch s1 leaves.length targets) fun u => ?_
    cases u with
    | none => exact .ok ⟨w1, rfl, fun h => by cases h⟩
    | some u =>
      refine Follows.bind (R := fun a c => ∃ m, a = c.withWork { w1 with leaves := w1.leaves + leaves.length, merges := w1.merges + m } ∧
        m + ones (s1.numLeaves + leaves.length) = ones s1.numLeaves + leaves.length) ?_ ?_
      · unfold Ram.addC Ram.add
        refine Follows.seq (x := Ram.prealloc _ _ _ _) fun data => Follows.seq fun _ => ?_
        refine Follows.bind (Acc.add_work Ram.places leaves { s1 with ext := data } w1 (by simp only [h5]; omega)) ?_
        rintro a c ⟨m, rfl, h6, h7⟩
        exact Follows.seq fun _ => Follows.seq fun _ => .ok ⟨m, rfl, h7⟩
      · rintro a c ⟨m, rfl, h7⟩
        rw [h5] at h7
        exact .ok ⟨_, rfl, fun _ => Acc.BlockCost.of h1 (fun e => h2 (.inr e)) h7⟩

end Utreexo
