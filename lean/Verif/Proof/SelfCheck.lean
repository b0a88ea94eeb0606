import Verif.Model.Checked
import Verif.Proof.Unique
import Verif.Proof.PolCount
import Verif.Props.Transform

/-!
# Runs with and without self-checks

The functions with the checks of a `UTREEXO_VERIFY` build return what the functions without them return.
-/

set_option linter.unusedSectionVars false

namespace Utreexo
open Spec Equiv

variable {H : Type} [DecidableEq H] [HashOps H]

/-- If `x` returns, `y` returns the same. -/
def Sim {α : Type} (y x : Res α) : Prop := ∀ a, x = .ok a → y = .ok a

namespace Sim
variable {α β : Type}

theorem refl {x : Res α} : Sim x x := fun _ h => h

theorem of_eq {x y : Res α} (h : y = x) : Sim y x := by rw [h]; exact refl

theorem error {y : Res α} {e : Fault} : Sim y (.error e) := fun _ h => by cases h

theorem bind {x y : Res β} {f g : β → Res α} (h : Sim y x) (hf : ∀ b, x = .ok b → Sim (g b) (f b)) : Sim (y >>= g) (x >>= f) := by
  cases hx : x with
  | error e => exact error
  | ok b => rw [h b hx]; exact hf b hx

theorem seq {x : Res β} {f g : β → Res α} (hf : ∀ b, x = .ok b → Sim (g b) (f b)) : Sim (x >>= g) (x >>= f) := bind refl hf

theorem check {x : Res α} {g : Unit → Res α} {c : Bool} (hc : c = true) (h : Sim (g ()) x) : Sim (cassert c >>= g) x := by
  rw [hc]; exact h

end Sim

namespace St

theorem leftDescendantV_eq {n pos drop row : ℕ} (h : detectRow n pos = .ok row) (hd : drop ≤ row) :
    leftDescendantV n pos drop = leftDescendant n pos drop := by
  unfold leftDescendantV
  rw [h, ok_bind]
  simp [cassert, hd]

theorem childV_eq {n pos b : ℕ} (h : n ≤ pos) : childV n pos b = child n pos b := by
  unfold childV
  simp [cassert, h]

end St

namespace Acc
variable {N X : Type}

/-- Two nodes of the same row that are exchanged. -/
def SwapOk (n : ℕ) (sw : St.Swap) : Prop :=
  ∃ r i j, sw.src = posOf (St.numRows n) r i ∧ sw.dst = posOf (St.numRows n) r j ∧ i ≠ j ∧ i < n / 2 ^ r ∧ j < n / 2 ^ r

/-- The virtual functions with and without checks agree in a forest with `n` leaves; `G` is known about the
dirty nodes. -/
structure Agree (vtV vt : VT H N X) (n : ℕ) (G : N → Prop) : Prop where
  range : ∀ s pos k, s.numLeaves = n → pos + k ≤ n → Sim (vtV.readLeafRange s pos k) (vt.readLeafRange s pos k)
  swap : ∀ s sw, s.numLeaves = n → SwapOk n sw → Sim (vtV.swapSubTrees s sw.src sw.dst) (vt.swapSubTrees s sw.src sw.dst)
  swapG : ∀ s a b, s.numLeaves = n → After (vt.swapSubTrees s a b) fun r => r.2.numLeaves = n ∧ ∀ d, r.1 = some d → G d
  rehash : ∀ s d, s.numLeaves = n → G d → Sim (vtV.nodeReHash s d) (vt.nodeReHash s d)
  rehashG : ∀ s d, s.numLeaves = n → After (vt.nodeReHash s d) fun r => r.numLeaves = n
  pos : vtV.nodePos = vt.nodePos
  parent : vtV.nodeParent = vt.nodeParent
  parentG : ∀ s d, G d → After (vt.nodeParent s d) fun r => ∀ p, r = some p → G p
  final : ∀ s k, s.numLeaves = n → k ≤ n → Sim (vtV.finalizeRemove s k) (vt.finalizeRemove s k)

section
variable {vtV vt : VT H N X} {n : ℕ} {G : N → Prop}

theorem updatePosRange_num (s : Acc H N X) (a b k : ℕ) : After (updatePosRange vt s a b k) fun r => r.numLeaves = s.numLeaves := by
  unfold updatePosRange
  split
  · exact After.ok rfl
  · refine After.seq fun _ => After.seq fun _ => After.pure rfl

theorem updatePosSubtree_num (s : Acc H N X) (a b : ℕ) : After (updatePosSubtree vt s a b) fun r => r.numLeaves = s.numLeaves := by
  unfold updatePosSubtree
  exact After.seq fun _ => After.seq fun _ => After.seq fun _ => After.seq fun _ => updatePosRange_num _ _ _ _

theorem updatePosRange_sim (A : Agree vtV vt n G) (s : Acc H N X) (hs : s.numLeaves = n) {a b k : ℕ} (ha : a + k ≤ n) (hb : b + k ≤ n) :
    Sim (updatePosRange vtV s a b k) (updatePosRange vt s a b k) := by
  unfold updatePosRange
  split
  · exact Sim.refl
  · exact Sim.bind (A.range _ _ _ hs ha) fun _ _ => Sim.bind (A.range _ _ _ hs hb) fun _ _ => Sim.refl

theorem updatePosSubtree_sim (A : Agree vtV vt n G) (hn : n ≤ 2 ^ 62) (s : Acc H N X) (hs : s.numLeaves = n) {sw : St.Swap}
    (h : SwapOk n sw) : Sim (updatePosSubtreeV vtV s sw.src sw.dst) (updatePosSubtree vt s sw.src sw.dst) := by
  obtain ⟨r, i, j, e1, e2, -, hi, hj⟩ := h
  have hR := numRows_le_62 hn
  obtain ⟨r1, i1⟩ := row_le hn hi
  obtain ⟨-, j1⟩ := row_le hn hj
  have d1 := detectRow_posOf (n := n) (by omega) (by omega) i1
  have d2 := detectRow_posOf (n := n) (by omega) (by omega) j1
  have l1 := leftDescendant_posOf (n := n) (by omega) (r := 0) (d := r) (i := i) (by omega) (by rw [Nat.zero_add]; exact i1)
  have l2 := leftDescendant_posOf (n := n) (by omega) (r := 0) (d := r) (i := j) (by omega) (by rw [Nat.zero_add]; exact j1)
  rw [Nat.zero_add, posOf_zero] at l1 l2
  unfold updatePosSubtreeV updatePosSubtree
  rw [hs, e1, e2, d1, ok_bind, ok_bind, St.leftDescendantV_eq d1 le_rfl, St.leftDescendantV_eq d2 le_rfl, l1, l2]
  simp only [ok_bind]
  rw [shl64_ok (by omega), ok_bind, ok_bind]
  have hp : 0 < 2 ^ r := by positivity
  have b1 : (i + 1) * 2 ^ r ≤ n := by
    have := Nat.mul_le_mul_right (2 ^ r) (Nat.succ_le_of_lt hi)
    exact le_trans this (Nat.div_mul_le_self n (2 ^ r))
  have b2 : (j + 1) * 2 ^ r ≤ n := by
    have := Nat.mul_le_mul_right (2 ^ r) (Nat.succ_le_of_lt hj)
    exact le_trans this (Nat.div_mul_le_self n (2 ^ r))
  have e : 1 * 2 ^ r % 2 ^ 64 = 2 ^ r := by
    rw [one_mul]
    exact Nat.mod_eq_of_lt (Nat.pow_lt_pow_right (by omega) (by omega))
  apply updatePosRange_sim A s hs
  · simp only [e]; rw [add_mul] at b1; omega
  · simp only [e]; rw [add_mul] at b2; omega

theorem runSwaps_sim (A : Agree vtV vt n G) (hn : n ≤ 2 ^ 62) : ∀ (sws : List St.Swap) (s : Acc H N X) (dirty : List (Option N)),
    (∀ sw ∈ sws, SwapOk n sw) → s.numLeaves = n → (∀ d, some d ∈ dirty → G d) →
    Sim (runSwapsV vtV sws s dirty) (runSwaps vt sws s dirty) ∧
      After (runSwaps vt sws s dirty) fun r => r.1.numLeaves = n ∧ ∀ d, some d ∈ r.2 → G d := by
  intro sws
  induction sws with
  | nil => intro s dirty _ hs hd; exact ⟨Sim.refl, After.ok ⟨hs, hd⟩⟩
  | cons sw sws ih =>
    intro s dirty hsw hs hd
    have hsw' : ∀ sw ∈ sws, SwapOk n sw := fun x hx => hsw x (List.mem_cons_of_mem _ hx)
    have h0 := hsw sw (by simp)
    have next : ∀ s1, updatePosSubtree vt s sw.src sw.dst = .ok s1 → ∀ d s2, vt.swapSubTrees s1 sw.src sw.dst = .ok (d, s2) →
        s1.numLeaves = n ∧ s2.numLeaves = n ∧ ∀ x, some x ∈ (if !sw.collapse then dirty ++ [d] else dirty) → G x := by
      intro s1 e1 d s2 e2
      have n1 := updatePosSubtree_num (vt := vt) s sw.src sw.dst s1 e1
      rw [hs] at n1
      obtain ⟨n2, g⟩ := A.swapG s1 sw.src sw.dst n1 _ e2
      refine ⟨n1, n2, ?_⟩
      intro x hx
      split at hx
      · rcases List.mem_append.1 hx with h | h
        · exact hd x h
        · exact g x (List.mem_singleton.1 h).symm
      · exact hd x hx
    rw [runSwapsV, runSwaps]
    constructor
    · refine Sim.bind (updatePosSubtree_sim A hn s hs h0) fun s1 e1 => ?_
      have n1 := updatePosSubtree_num (vt := vt) s sw.src sw.dst s1 e1
      rw [hs] at n1
      refine Sim.bind (A.swap s1 sw n1 h0) fun r e2 => ?_
      obtain ⟨d, s2⟩ := r
      obtain ⟨-, n2, g⟩ := next s1 e1 d s2 e2
      exact (ih s2 _ hsw' n2 g).1
    · intro a ha
      obtain ⟨s1, e1, ha⟩ := bind_eq_ok.1 ha
      obtain ⟨r, e2, ha⟩ := bind_eq_ok.1 ha
      obtain ⟨d, s2⟩ := r
      obtain ⟨-, n2, g⟩ := next s1 e1 d s2 e2
      exact (ih s2 _ hsw' n2 g).2 a ha

theorem rehashDirty_sim (A : Agree vtV vt n G) (cs : ℕ) : ∀ (ds : List (Option N)) (s : Acc H N X) (next : List N),
    (∀ d, some d ∈ ds → G d) → s.numLeaves = n → (∀ d ∈ next, G d) →
    Sim (rehashDirty vtV cs ds s next) (rehashDirty vt cs ds s next) ∧
      After (rehashDirty vt cs ds s next) fun r => r.1.numLeaves = n ∧ ∀ d ∈ r.2, G d := by
  intro ds
  induction ds with
  | nil => intro s next _ hs hn; exact ⟨Sim.refl, After.ok ⟨hs, hn⟩⟩
  | cons d ds ih =>
    intro s next hd hs hn
    cases d with
    | none => exact ⟨Sim.error, After.error⟩
    | some d =>
      have hd' : ∀ d, some d ∈ ds → G d := fun x hx => hd x (List.mem_cons_of_mem _ hx)
      have hg := hd d (by simp)
      have hnext : ∀ s1 p, vt.nodeParent s1 d = .ok (some p) → ∀ x ∈ next ++ [p], G x := by
        intro s1 p e x hx
        rcases List.mem_append.1 hx with h | h
        · exact hn x h
        · rw [List.mem_singleton.1 h]; exact A.parentG s1 d hg _ e p rfl
      rw [rehashDirty, rehashDirty, A.pos, A.parent]
      constructor
      · refine Sim.bind (A.rehash s d hs hg) fun s1 e1 => ?_
        have n1 := A.rehashG s d hs s1 e1
        have key : ∀ push : Bool, Sim
            (if push = true then do
              match ← vt.nodeParent s1 d with
              | some p => rehashDirty vtV cs ds s1 (next ++ [p])
              | none => rehashDirty vtV cs ds s1 next
            else rehashDirty vtV cs ds s1 next)
            (if push = true then do
              match ← vt.nodeParent s1 d with
              | some p => rehashDirty vt cs ds s1 (next ++ [p])
              | none => rehashDirty vt cs ds s1 next
            else rehashDirty vt cs ds s1 next) := by
          intro push
          split
          · refine Sim.seq fun r er => ?_
            cases r with
            | none => exact (ih s1 next hd' n1 hn).1
            | some p => exact (ih s1 _ hd' n1 (hnext s1 p er)).1
          · exact (ih s1 next hd' n1 hn).1
        dsimp only
        split
        · exact Sim.seq fun push _ => key push
        · exact Sim.seq fun _ _ => Sim.seq fun push _ => key push
      · refine After.bind (Q := fun r => r.numLeaves = n) (A.rehashG s d hs) fun s1 n1 => ?_
        have key : ∀ push : Bool, After
            (if push = true then do
              match ← vt.nodeParent s1 d with
              | some p => rehashDirty vt cs ds s1 (next ++ [p])
              | none => rehashDirty vt cs ds s1 next
            else rehashDirty vt cs ds s1 next) fun r => r.1.numLeaves = n ∧ ∀ d ∈ r.2, G d := by
          intro push
          split
          · intro a ha
            obtain ⟨r, er, ha⟩ := bind_eq_ok.1 ha
            cases r with
            | none => exact (ih s1 next hd' n1 hn).2 a ha
            | some p => exact (ih s1 _ hd' n1 (hnext s1 p er)).2 a ha
          · exact (ih s1 next hd' n1 hn).2
        dsimp only
        split
        · exact After.seq fun push => key push
        · exact After.seq fun _ => After.seq fun push => key push

theorem removeRows_sim (A : Agree vtV vt n G) (hn : n ≤ 2 ^ 62) (cs : ℕ) : ∀ (k : ℕ) (rows : List (List St.Swap)) (s : Acc H N X)
    (dirty : List N), (∀ row ∈ rows, ∀ sw ∈ row, SwapOk n sw) → s.numLeaves = n → (∀ d ∈ dirty, G d) →
    Sim (removeRowsV vtV cs k rows s dirty) (removeRows vt cs k rows s dirty) ∧
      After (removeRows vt cs k rows s dirty) fun r => r.1.numLeaves = n := by
  intro k
  induction k with
  | zero => intro rows s dirty _ hs _; exact ⟨Sim.refl, After.ok hs⟩
  | succ k ih =>
    intro rows s dirty hr hs hd
    have hhead : ∀ sw ∈ rows.headD [], SwapOk n sw := by
      cases rows with
      | nil => simp
      | cons r rs => exact hr r (by simp)
    have htail : ∀ row ∈ rows.tail, ∀ sw ∈ row, SwapOk n sw := fun row h => hr row (List.mem_of_mem_tail h)
    obtain ⟨h1, h2⟩ := runSwaps_sim A hn (rows.headD []) s (dirty.map some) hhead hs (by
      intro d h
      obtain ⟨x, hx, e⟩ := List.mem_map.1 h
      rw [← Option.some.inj e]; exact hd x hx)
    rw [removeRowsV, removeRows]
    constructor
    · refine Sim.bind h1 fun r e1 => ?_
      obtain ⟨s1, dirty1⟩ := r
      obtain ⟨n1, g1⟩ := h2 _ e1
      obtain ⟨h3, h4⟩ := rehashDirty_sim A cs dirty1 s1 [] g1 n1 (by simp)
      refine Sim.bind h3 fun r e2 => ?_
      obtain ⟨s2, next⟩ := r
      obtain ⟨n2, g2⟩ := h4 _ e2
      exact (ih _ s2 next htail n2 g2).1
    · refine After.bind h2 fun r hr => ?_
      obtain ⟨s1, dirty1⟩ := r
      obtain ⟨n1, g1⟩ := hr
      obtain ⟨h3, h4⟩ := rehashDirty_sim A cs dirty1 s1 [] g1 n1 (by simp)
      refine After.bind h4 fun r hr => ?_
      obtain ⟨s2, next⟩ := r
      exact (ih _ s2 next htail hr.1 hr.2).2

theorem remove_sim (A : Agree vtV vt n G) (hn : n ≤ 2 ^ 62) (s : Acc H N X) (hs : s.numLeaves = n) (targets : List ℕ) :
    Sim (removeV vtV s targets) (remove vt s targets) := by
  unfold removeV remove
  split
  · exact Sim.refl
  · dsimp only
    rw [hs]
    obtain ⟨b, hb1, hb2⟩ := C07_checkTargetsSanity n targets
    rw [hb1, ok_bind, ok_bind]
    cases b with
    | false => exact Sim.refl
    | true =>
      obtain ⟨c1, c2⟩ := hb2.1 rfl
      obtain ⟨rows, e, -, h3, -⟩ := C09_transform n hn targets c1 c2
      simp only [Bool.not_true, Bool.false_eq_true, if_false]
      rw [e, ok_bind, ok_bind]
      have hrows : ∀ row ∈ rows, ∀ sw ∈ row, SwapOk n sw := by
        intro row hrow sw hsw
        obtain ⟨r, hr⟩ := List.mem_iff_getElem?.1 hrow
        obtain ⟨i, j, q1, q2, q3, q4, q5⟩ := h3 r row hr sw hsw
        exact ⟨r, i, j, q1, q2, q3, inForest_iff.1 q4, inForest_iff.1 q5⟩
      obtain ⟨h1, h2⟩ := removeRows_sim A hn n (St.numRows n) rows s [] hrows hs (by simp)
      refine Sim.bind h1 fun r e1 => ?_
      obtain ⟨s1, dirty⟩ := r
      have n1 : s1.numLeaves = n := h2 _ e1
      refine Sim.seq fun _ _ => ?_
      dsimp only
      have hl : targets.length ≤ n := by
        have := sorted_length_add_le targets 0 n c1 (fun x hx => ⟨Nat.zero_le _, c2 x hx⟩) (Nat.zero_le _)
        omega
      refine Sim.bind (A.final s1 _ n1 ?_) fun _ _ => Sim.refl
      rw [n1, sub64_ok hl (by omega)]
      omega

end
end Acc
end Utreexo
