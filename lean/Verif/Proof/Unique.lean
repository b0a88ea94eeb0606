import Verif.Model.Pollard
import Verif.Proof.PosMap

/-!
# The position map of a pollard has unique keys

The position map is an association list in the model. These lemmas show that no function of a pollard makes it hold a
key twice, so that it is a map.
-/

set_option linter.unusedSectionVars false

namespace Utreexo
variable {H : Type} [DecidableEq H] [HashOps H]

/-- If the computation does not fault, its result satisfies `P`. -/
def After {α : Type} (x : Res α) (P : α → Prop) : Prop := ∀ a, x = .ok a → P a

namespace After
variable {α β : Type} {P : α → Prop} {Q : β → Prop}

theorem ok {a : α} (h : P a) : After (.ok a) P := by
  intro b hb
  injection hb with hb
  exact hb ▸ h

theorem pure {a : α} (h : P a) : After (Pure.pure a) P := ok h

theorem error {e : Fault} : After (.error e) P := by intro b hb; cases hb

theorem bind {x : Res β} {f : β → Res α} (hx : After x Q) (hf : ∀ b, Q b → After (f b) P) : After (x >>= f) P := by
  cases x with
  | error e => exact error
  | ok b => exact hf b (hx b rfl)

theorem seq {x : Res β} {f : β → Res α} (hf : ∀ b, After (f b) P) : After (x >>= f) P := by
  cases x with
  | error e => exact error
  | ok b => exact hf b

theorem ite {c : Prop} [Decidable c] {x y : Res α} (hx : After x P) (hy : After y P) : After (if c then x else y) P := by
  split <;> assumption

end After

/-- Step through a computation whose steps do not touch the position map. -/
macro "walk" : tactic => `(tactic| repeat' (first
  | exact After.error | exact After.pure (by assumption) | exact After.ok (by assumption)
  | (refine After.seq fun _ => ?_) | dsimp only | split))

namespace Acc
variable {N X : Type}

/-- The virtual functions keep the keys unique. -/
structure Keeps (vt : VT H N X) : Prop where
  swap : ∀ s a b, PosMap.Uniq s.posmap → After (vt.swapSubTrees s a b) fun r => PosMap.Uniq r.2.posmap
  merge : ∀ s a b, PosMap.Uniq s.posmap → After (vt.mergeRoot s a b) fun r => PosMap.Uniq r.2.posmap
  leaf : ∀ s a, PosMap.Uniq s.posmap → After (vt.newLeaf s a) fun r => PosMap.Uniq r.2.posmap
  final : ∀ s a, PosMap.Uniq s.posmap → After (vt.finalizeRemove s a) fun r => PosMap.Uniq r.posmap
  rehash : ∀ s a, PosMap.Uniq s.posmap → After (vt.nodeReHash s a) fun r => PosMap.Uniq r.posmap

variable {vt : VT H N X} (k : Keeps vt)
include k

theorem Keeps.updatePosRange {s : Acc H N X} (h : PosMap.Uniq s.posmap) (a b c : Nat) :
    After (Acc.updatePosRange vt s a b c) fun r => PosMap.Uniq r.posmap := by
  unfold Acc.updatePosRange
  refine .ite (.ok h) (.seq fun x => .seq fun y => .pure ?_)
  exact (PosMap.shiftAll_uniq _ _ (PosMap.shiftAll_uniq _ _ h).1).1

theorem Keeps.updatePosSubtree {s : Acc H N X} (h : PosMap.Uniq s.posmap) (a b : Nat) :
    After (Acc.updatePosSubtree vt s a b) fun r => PosMap.Uniq r.posmap := by
  unfold Acc.updatePosSubtree
  exact .seq fun _ => .seq fun _ => .seq fun _ => .seq fun _ => k.updatePosRange h _ _ _

theorem Keeps.runSwaps : ∀ (sws : List St.Swap) {s : Acc H N X} (d : List (Option N)), PosMap.Uniq s.posmap →
    After (Acc.runSwaps vt sws s d) fun r => PosMap.Uniq r.1.posmap := by
  intro sws
  induction sws with
  | nil => intro s d h; exact .ok h
  | cons sw sws ih =>
    intro s d h
    unfold Acc.runSwaps
    refine .bind (k.updatePosSubtree h _ _) fun s1 h1 => .bind (k.swap _ _ _ h1) ?_
    rintro ⟨d', s2⟩ h2
    exact ih _ h2

theorem Keeps.rehashDirty (cs : Nat) : ∀ (ds : List (Option N)) {s : Acc H N X} (next : List N), PosMap.Uniq s.posmap →
    After (Acc.rehashDirty vt cs ds s next) fun r => PosMap.Uniq r.1.posmap := by
  intro ds
  induction ds with
  | nil => intro s d h; exact .ok h
  | cons d ds ih =>
    intro s next h
    cases d with
    | none => exact .error
    | some d =>
      unfold Acc.rehashDirty
      refine .bind (k.rehash _ _ h) fun s1 h1 => ?_
      walk <;> exact ih _ h1

theorem Keeps.removeRows (cs : Nat) : ∀ (n : Nat) (sws : List (List St.Swap)) {s : Acc H N X} (d : List N),
    PosMap.Uniq s.posmap → After (Acc.removeRows vt cs n sws s d) fun r => PosMap.Uniq r.1.posmap := by
  intro n
  induction n with
  | zero => intro sws s d h; exact .ok h
  | succ n ih =>
    intro sws s d h
    unfold Acc.removeRows
    refine .bind (k.runSwaps _ _ h) ?_
    rintro ⟨s1, d1⟩ h1
    refine .bind (k.rehashDirty cs _ _ h1) ?_
    rintro ⟨s2, d2⟩ h2
    exact ih _ _ h2

theorem Keeps.remove {s : Acc H N X} (h : PosMap.Uniq s.posmap) (ts : List Nat) :
    After (Acc.remove vt s ts) fun r => PosMap.Uniq r.2.posmap := by
  unfold Acc.remove
  refine .ite (.ok h) (.seq fun b => .ite (.pure h) (.seq fun sws => .bind (k.removeRows _ _ _ _ h) ?_))
  rintro ⟨s1, d1⟩ h1
  exact .seq fun _ => .bind (k.final _ _ h1) fun s2 h2 => .pure h2

theorem Keeps.mergeLoop (cs : Nat) : ∀ (n row : Nat) (root : Int) (r : N) {s : Acc H N X}, PosMap.Uniq s.posmap →
    After (Acc.mergeLoop vt cs n row root r s) fun r => PosMap.Uniq r.posmap := by
  intro n
  induction n with
  | zero => intro row root r s h; exact .error
  | succ n ih =>
    intro row root r s h
    unfold Acc.mergeLoop
    refine .seq fun b => .ite (.seq fun l => .seq fun lh => .seq fun rh => .seq fun pp => .bind (k.merge _ _ _ h) ?_) (.pure h)
    rintro ⟨r', s'⟩ h'
    exact ih _ _ _ h'

theorem Keeps.addOne {s : Acc H N X} (h : PosMap.Uniq s.posmap) (l : Leaf H) :
    After (Acc.addOne vt s l) fun r => PosMap.Uniq r.posmap := by
  unfold Acc.addOne
  refine .bind (k.leaf _ _ h) ?_
  rintro ⟨r, s1⟩ h1
  refine .bind (k.mergeLoop _ _ _ _ _ h1) fun s2 h2 => .ite (.pure h2) ?_
  split
  · exact .seq fun _ => .seq fun _ => .pure h2
  · exact .error

theorem Keeps.add : ∀ (ls : List (Leaf H)) {s : Acc H N X}, PosMap.Uniq s.posmap →
    After (Acc.add vt s ls) fun r => PosMap.Uniq r.posmap := by
  intro ls
  induction ls with
  | nil => intro s h; exact .ok h
  | cons l ls ih =>
    intro s h
    unfold Acc.add
    rw [List.foldlM_cons]
    exact .bind (k.addOne h l) fun s1 h1 => ih h1

theorem Keeps.modify {s : Acc H N X} (h : PosMap.Uniq s.posmap) (ls : List (Leaf H)) (ts : List Nat) :
    After (Acc.modify vt (Acc.add vt) s ls ts) fun r => PosMap.Uniq r.2.posmap := by
  unfold Acc.modify
  refine .bind (k.remove h ts) ?_
  rintro ⟨b, s1⟩ h1
  exact .ite (.pure h1) (.bind (k.add ls h1) fun s2 h2 => .pure h2)

end Acc

namespace Pol

theorem eraseLoop_uniq (s : Pollard H) : ∀ (n pos : Nat) (m : PosMap H), PosMap.Uniq m →
    After (eraseLoop s pos n m) PosMap.Uniq := by
  intro n
  induction n with
  | zero => intro pos m h; exact .ok h
  | succ n ih =>
    intro pos m h
    unfold eraseLoop
    refine .seq fun r => ?_
    cases r with
    | none => exact ih _ _ h
    | some x => exact ih _ _ (h.erase x)

theorem selectRoots_posmap : ∀ (ps : List Nat) (s : Pollard H) (acc : List PNode),
    After (selectRoots s ps acc) fun r => r.1.posmap = s.posmap := by
  intro ps
  induction ps with
  | nil => intro s acc; exact .ok rfl
  | cons p ps ih =>
    intro s acc
    unfold selectRoots
    walk <;> exact ih _ _

theorem keeps : Acc.Keeps (vt : VT H PNode (List (INode H))) where
  swap := by
    intro s a b h
    show After (swapSubTrees s a b) _
    unfold swapSubTrees
    walk
  merge := by
    intro s a b h
    show After (mergeRoot s a b) _
    unfold mergeRoot
    walk
  leaf := by
    intro s a h
    show After (newLeaf s a) _
    unfold newLeaf
    refine .ok ?_
    simp only
    split
    · exact h.insert _ _
    · exact h
  final := by
    intro s a h
    show After (finalizeRemove s a) _
    unfold finalizeRemove
    refine .bind (eraseLoop_uniq s _ _ _ h) fun m hm => .seq fun ps => .bind (selectRoots_posmap _ _ _) ?_
    rintro ⟨s', roots⟩ h'
    dsimp only at h' ⊢
    exact .pure (by dsimp only; rw [h']; exact hm)
  rehash := by
    intro s a h
    show After (nodeReHash s a) _
    unfold nodeReHash
    refine .seq fun x => ?_
    split
    · exact .seq fun _ => .seq fun _ => .seq fun _ => .seq fun _ => .seq fun _ => .pure h
    · exact .pure h

theorem rememberTargets_uniq : ∀ (hs : List H) (ps : List Nat) (m : PosMap H), PosMap.Uniq m →
    After (rememberTargets hs ps m) PosMap.Uniq := by
  intro hs
  induction hs with
  | nil => intro ps m h; exact .ok h
  | cons x hs ih =>
    intro ps m h
    cases ps with
    | nil => exact .error
    | cons p ps => exact ih _ _ (h.insert _ _)

theorem modify_uniq {s : Pollard H} (h : PosMap.Uniq s.posmap) (ls : List (Leaf H)) (ts : List Nat) :
    After (modify s ls ts) fun r => PosMap.Uniq r.2.posmap := keeps.modify h ls ts

theorem verify_uniq {s : Pollard H} (h : PosMap.Uniq s.posmap) (proof : BatchProof H) (hs : List H) :
    After (verify s proof hs) fun r => PosMap.Uniq r.2.posmap := by
  unfold verify
  refine .ite (.ok h) (.seq fun b => .ite (.pure h) (.ite (.pure h) (.seq ?_)))
  rintro ⟨ok, c, tree⟩
  have key : ∀ x : Bool × VPT H, After (if (!x.1) = true then do
        let heap ← recover x.2.arena c.recovery x.2.heap
        pure (false, ({ s with roots := c.roots, ext := heap } : Pollard H))
      else do
        let m ← rememberTargets hs proof.sorted s.posmap
        pure (true, ({ s with roots := c.roots, ext := x.2.heap, posmap := m } : Pollard H))) fun r => PosMap.Uniq r.2.posmap := by
    intro x
    exact .ite (.seq fun _ => .pure h) (.bind (rememberTargets_uniq _ _ _ h) fun m hm => .pure hm)
  dsimp only
  split
  · exact .seq fun x => key x
  · exact .seq fun x => key x

theorem pruneAll_uniq {s : Pollard H} (h : PosMap.Uniq s.posmap) : After (pruneAll s) fun r => PosMap.Uniq r.posmap := by
  unfold pruneAll
  exact .seq fun _ => .seq fun _ => .pure h

theorem fromRoots_uniq (rs : List H) (n : Nat) : After (fromRoots rs n) fun r => PosMap.Uniq r.posmap := by
  unfold fromRoots
  refine .seq fun _ => .seq fun _ => .seq fun _ => .seq ?_
  rintro ⟨a, b⟩
  exact .pure List.nodup_nil

end Pol
end Utreexo
