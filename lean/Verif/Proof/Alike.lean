import Verif.Props.Compare

/-!
# The order of the position map does not matter
-/

set_option linter.unusedSectionVars false

namespace Utreexo
open Spec Equiv

variable {H : Type} [DecidableEq H] [HashOps H]

namespace PosMap

/-- Two orders of the same map. -/
structure Like (m m' : PosMap H) : Prop where
  uniq : Uniq m
  perm : m.Perm m'

theorem Like.refl {m : PosMap H} (h : Uniq m) : Like m m := ⟨h, .refl _⟩

theorem Like.uniq' {m m' : PosMap H} (h : Like m m') : Uniq m' := by
  have := h.uniq
  unfold Uniq at this ⊢
  exact (h.perm.map Prod.fst).nodup_iff.1 this

theorem Like.symm {m m' : PosMap H} (h : Like m m') : Like m' m := ⟨h.uniq', h.perm.symm⟩

theorem Like.find {m m' : PosMap H} (h : Like m m') (x : H) : find m x = find m' x := by
  apply Option.ext
  intro v
  have h1 := mem_iff_find h.uniq (x, v)
  have h2 := mem_iff_find h.uniq' (x, v)
  simp only at h1 h2
  rw [← h1, ← h2, h.perm.mem_iff]

theorem Like.length {m m' : PosMap H} (h : Like m m') : m.length = m'.length := h.perm.length_eq

theorem Like.erase {m m' : PosMap H} (h : Like m m') (x : H) : Like (erase m x) (erase m' x) := by
  refine ⟨h.uniq.erase x, ?_⟩
  unfold PosMap.erase
  exact h.perm.filter _

theorem Like.insert {m m' : PosMap H} (h : Like m m') (x : H) (v : ℕ) : Like (insert m x v) (insert m' x v) :=
  ⟨h.uniq.insert x v, (h.erase x).perm.cons _⟩

end PosMap

open PosMap (Like)

/-- The same outcome, with results in relation. -/
def RelR {α β : Type} (R : α → β → Prop) : Res α → Res β → Prop
  | .ok a, .ok b => R a b
  | .error e, .error e' => e = e'
  | _, _ => False

theorem RelR.bind {α β γ δ : Type} {R : α → β → Prop} {S : γ → δ → Prop} {x : Res α} {y : Res β} {f : α → Res γ} {g : β → Res δ}
    (h : RelR R x y) (hf : ∀ a b, R a b → RelR S (f a) (g b)) : RelR S (x >>= f) (y >>= g) := by
  cases x <;> cases y <;> simp only [RelR] at h
  · subst h; exact rfl
  · exact hf _ _ h

theorem RelR.same {α : Type} {x y : Res α} (h : x = y) : RelR Eq x y := by
  subst h; cases x <;> rfl

theorem RelR.ok {α β : Type} {R : α → β → Prop} {a : α} {b : β} (h : R a b) : RelR R (.ok a) (.ok b) := h

theorem RelR.mono {α β : Type} {R S : α → β → Prop} {x : Res α} {y : Res β} (h : RelR R x y) (hs : ∀ a b, R a b → S a b) :
    RelR S x y := by
  cases x <;> cases y <;> simp only [RelR] at h ⊢
  · exact h
  · exact hs _ _ h

namespace Acc
variable {N X : Type}

/-- The same accumulator up to the order of its position map. -/
structure Alike (a b : Acc H N X) : Prop where
  num : a.numLeaves = b.numLeaves
  roots : a.roots = b.roots
  ext : a.ext = b.ext
  map : Like a.posmap b.posmap

theorem Alike.setExt {a b : Acc H N X} (h : Alike a b) {x y : X} (e : x = y) : Alike { a with ext := x } { b with ext := y } :=
  ⟨h.num, h.roots, e, h.map⟩

/-- The virtual functions take no notice of the order. -/
structure Blind (vt : VT H N X) : Prop where
  read : ∀ {a b}, Alike a b → ∀ p, vt.read a p = vt.read b p
  readLeafRange : ∀ {a b}, Alike a b → ∀ p k, vt.readLeafRange a p k = vt.readLeafRange b p k
  nodeHash : ∀ {a b}, Alike a b → ∀ d, vt.nodeHash a d = vt.nodeHash b d
  nodeParent : ∀ {a b}, Alike a b → ∀ d, vt.nodeParent a d = vt.nodeParent b d
  swapSubTrees : ∀ {a b}, Alike a b → ∀ p q, RelR (fun x y => x.1 = y.1 ∧ Alike x.2 y.2) (vt.swapSubTrees a p q) (vt.swapSubTrees b p q)
  mergeRoot : ∀ {a b}, Alike a b → ∀ p q, RelR (fun x y => x.1 = y.1 ∧ Alike x.2 y.2) (vt.mergeRoot a p q) (vt.mergeRoot b p q)
  newLeaf : ∀ {a b}, Alike a b → ∀ l, RelR (fun x y => x.1 = y.1 ∧ Alike x.2 y.2) (vt.newLeaf a l) (vt.newLeaf b l)
  finalizeRemove : ∀ {a b}, Alike a b → ∀ k, RelR Alike (vt.finalizeRemove a k) (vt.finalizeRemove b k)
  nodeReHash : ∀ {a b}, Alike a b → ∀ d, RelR Alike (vt.nodeReHash a d) (vt.nodeReHash b d)

variable {vt : VT H N X}

theorem shiftPos_like {m m' : PosMap H} (h : Like m m') (o : ℕ) (x : H) : Like (shiftPos o m x) (shiftPos o m' x) := by
  unfold shiftPos
  rw [h.find x]
  cases PosMap.find m' x with
  | none => exact h
  | some p => exact h.insert _ _

theorem shiftPos_foldl (o : ℕ) : ∀ (l : List H) {m m' : PosMap H}, Like m m' → Like (l.foldl (shiftPos o) m) (l.foldl (shiftPos o) m')
  | [], _, _, h => h
  | x :: l, _, _, h => shiftPos_foldl o l (shiftPos_like h o x)

theorem updatePosRange_like (hb : Blind vt) {a b : Acc H N X} (h : Alike a b) (p q k : ℕ) :
    RelR Alike (updatePosRange vt a p q k) (updatePosRange vt b p q k) := by
  unfold updatePosRange
  rw [h.map.length]
  split
  · exact h
  · refine .bind (.same (hb.readLeafRange h p k)) ?_
    rintro l _ rfl
    refine .bind (.same (hb.readLeafRange h q k)) ?_
    rintro l' _ rfl
    exact ⟨h.num, h.roots, h.ext, shiftPos_foldl _ _ (shiftPos_foldl _ _ h.map)⟩

theorem updatePosSubtree_like (hb : Blind vt) {a b : Acc H N X} (h : Alike a b) (p q : ℕ) :
    RelR Alike (updatePosSubtree vt a p q) (updatePosSubtree vt b p q) := by
  unfold updatePosSubtree
  rw [h.num]
  refine .bind (.same rfl) ?_
  rintro _ _ rfl
  refine .bind (.same rfl) ?_
  rintro _ _ rfl
  refine .bind (.same rfl) ?_
  rintro _ _ rfl
  refine .bind (.same rfl) ?_
  rintro _ _ rfl
  exact updatePosRange_like hb h _ _ _

theorem mergeLoop_like (hb : Blind vt) (cs : ℕ) : ∀ (fuel row : ℕ) (root : Int) (d : N) {a b : Acc H N X}, Alike a b →
    RelR Alike (mergeLoop vt cs fuel row root d a) (mergeLoop vt cs fuel row root d b)
  | 0, _, _, _, _, _, _ => rfl
  | fuel + 1, row, root, d, a, b, h => by
    unfold mergeLoop
    refine .bind (.same rfl) ?_
    rintro c _ rfl
    split
    · refine .bind (.same (by unfold rootAt; rw [h.roots])) ?_
      rintro l _ rfl
      refine .bind (.same (hb.nodeHash h l)) ?_
      rintro lh _ rfl
      refine .bind (.same (hb.nodeHash h d)) ?_
      rintro rh _ rfl
      refine .bind (.same rfl) ?_
      rintro pp _ rfl
      refine .bind (hb.mergeRoot h _ _) ?_
      rintro ⟨d', a'⟩ ⟨_, b'⟩ ⟨rfl, h'⟩
      exact mergeLoop_like hb cs fuel _ _ d' h'
    · exact h

theorem addOne_like (hb : Blind vt) {a b : Acc H N X} (h : Alike a b) (l : Leaf H) : RelR Alike (addOne vt a l) (addOne vt b l) := by
  unfold addOne
  rw [h.num, h.roots]
  refine .bind (hb.newLeaf h l) ?_
  rintro ⟨d, a1⟩ ⟨_, b1⟩ ⟨rfl, h1⟩
  refine .bind (mergeLoop_like hb _ _ _ _ _ h1) ?_
  intro a2 b2 h2
  dsimp only
  rw [h2.num, h2.roots]
  have h3 : Alike { a2 with numLeaves := wrap64 (b2.numLeaves + 1) } { b2 with numLeaves := wrap64 (b2.numLeaves + 1) } :=
    ⟨rfl, h2.roots, h2.ext, h2.map⟩
  rw [h2.roots] at h3
  split
  · exact h3
  · split
    · refine .bind (.same rfl) ?_
      rintro _ _ rfl
      refine .bind (.same rfl) ?_
      rintro _ _ rfl
      exact ⟨rfl, rfl, h2.ext, h2.map⟩
    · rfl

theorem add_like (hb : Blind vt) : ∀ (ls : List (Leaf H)) {a b : Acc H N X}, Alike a b → RelR Alike (add vt a ls) (add vt b ls)
  | [], _, _, h => h
  | l :: ls, a, b, h => by
    unfold add
    rw [List.foldlM_cons, List.foldlM_cons]
    exact .bind (addOne_like hb h l) fun a' b' h' => add_like hb ls h'

theorem runSwaps_like (hb : Blind vt) : ∀ (sws : List St.Swap) (dirty : List (Option N)) {a b : Acc H N X}, Alike a b →
    RelR (fun x y => Alike x.1 y.1 ∧ x.2 = y.2) (runSwaps vt sws a dirty) (runSwaps vt sws b dirty)
  | [], _, _, _, h => ⟨h, rfl⟩
  | sw :: sws, dirty, a, b, h => by
    unfold runSwaps
    refine .bind (updatePosSubtree_like hb h _ _) ?_
    intro a1 b1 h1
    refine .bind (hb.swapSubTrees h1 _ _) ?_
    rintro ⟨d, a2⟩ ⟨_, b2⟩ ⟨rfl, h2⟩
    exact runSwaps_like hb sws _ h2

theorem rehashDirty_like (hb : Blind vt) (cs : ℕ) : ∀ (ds : List (Option N)) (next : List N) {a b : Acc H N X}, Alike a b →
    RelR (fun x y => Alike x.1 y.1 ∧ x.2 = y.2) (rehashDirty vt cs ds a next) (rehashDirty vt cs ds b next)
  | [], _, _, _, h => ⟨h, rfl⟩
  | none :: _, _, _, _, _ => rfl
  | some d :: ds, next, a, b, h => by
    unfold rehashDirty
    refine .bind (hb.nodeReHash h d) ?_
    intro a1 b1 h1
    have key : RelR (fun x y => Alike x.1 y.1 ∧ x.2 = y.2)
        (do match ← vt.nodeParent a1 d with
            | some p => rehashDirty vt cs ds a1 (next ++ [p])
            | none => rehashDirty vt cs ds a1 next)
        (do match ← vt.nodeParent b1 d with
            | some p => rehashDirty vt cs ds b1 (next ++ [p])
            | none => rehashDirty vt cs ds b1 next) := by
      refine .bind (.same (hb.nodeParent h1 d)) ?_
      rintro p _ rfl
      cases p with
      | some p => exact rehashDirty_like hb cs ds _ h1
      | none => exact rehashDirty_like hb cs ds _ h1
    cases next.getLast? with
    | none => exact key
    | some l =>
      refine .bind (.same rfl) ?_
      rintro p _ rfl
      rw [pure_bind, pure_bind]
      dsimp only
      split
      · exact key
      · exact rehashDirty_like hb cs ds _ h1

theorem removeRows_like (hb : Blind vt) (cs : ℕ) : ∀ (k : ℕ) (swaps : List (List St.Swap)) (dirty : List N) {a b : Acc H N X},
    Alike a b → RelR (fun x y => Alike x.1 y.1 ∧ x.2 = y.2) (removeRows vt cs k swaps a dirty) (removeRows vt cs k swaps b dirty)
  | 0, _, _, _, _, h => ⟨h, rfl⟩
  | k + 1, swaps, dirty, a, b, h => by
    unfold removeRows
    refine .bind (runSwaps_like hb _ _ h) ?_
    rintro ⟨a1, d1⟩ ⟨b1, _⟩ ⟨h1, rfl⟩
    refine .bind (rehashDirty_like hb cs _ _ h1) ?_
    rintro ⟨a2, d2⟩ ⟨b2, _⟩ ⟨h2, rfl⟩
    exact removeRows_like hb cs k _ _ h2

theorem remove_like (hb : Blind vt) {a b : Acc H N X} (h : Alike a b) (ts : List ℕ) :
    RelR (fun x y => x.1 = y.1 ∧ Alike x.2 y.2) (remove vt a ts) (remove vt b ts) := by
  unfold remove
  rw [h.num]
  split
  · exact ⟨rfl, h⟩
  · refine .bind (.same rfl) ?_
    rintro ok _ rfl
    split
    · exact ⟨rfl, h⟩
    · refine .bind (.same rfl) ?_
      rintro sws _ rfl
      refine .bind (removeRows_like hb _ _ _ _ h) ?_
      rintro ⟨a1, d1⟩ ⟨b1, _⟩ ⟨h1, rfl⟩
      refine .bind (.same rfl) ?_
      rintro _ _ rfl
      dsimp only
      rw [h1.num]
      refine .bind (hb.finalizeRemove h1 _) ?_
      intro a2 b2 h2
      exact ⟨rfl, rfl, h2.roots, h2.ext, h2.map⟩

theorem lookupTargets_like {m m' : PosMap H} (h : Like m m') : ∀ hs : List H, lookupTargets m hs = lookupTargets m' hs
  | [] => rfl
  | x :: hs => by
    unfold lookupTargets
    rw [h.find x, lookupTargets_like h hs]

theorem readProof_like (hb : Blind vt) {a b : Acc H N X} (h : Alike a b) : ∀ ps : List ℕ, readProof vt a ps = readProof vt b ps
  | [] => rfl
  | p :: ps => by
    unfold readProof
    rw [hb.read h p, readProof_like hb h ps]

theorem prove_like (hb : Blind vt) {a b : Acc H N X} (h : Alike a b) (hs : List H) : prove vt a hs = prove vt b hs := by
  unfold prove
  rw [lookupTargets_like h.map, h.num]
  simp only [readProof_like hb h]

theorem rootHashes_like (hb : Blind vt) {a b : Acc H N X} (h : Alike a b) : rootHashes vt a = rootHashes vt b := by
  unfold rootHashes
  rw [h.roots, show vt.nodeHash a = vt.nodeHash b from funext (hb.nodeHash h)]

theorem modify_like (hb : Blind vt) {f : Acc H N X → List (Leaf H) → Res (Acc H N X)}
    (hf : ∀ {a b}, Alike a b → ∀ ls, RelR Alike (f a ls) (f b ls)) {a b : Acc H N X} (h : Alike a b) (ls : List (Leaf H))
    (ts : List ℕ) : RelR (fun x y => x.1 = y.1 ∧ Alike x.2 y.2) (modify vt f a ls ts) (modify vt f b ls ts) := by
  unfold modify
  refine .bind (remove_like hb h ts) ?_
  rintro ⟨ok, a1⟩ ⟨_, b1⟩ ⟨rfl, h1⟩
  dsimp only at h1 ⊢
  split
  · exact ⟨rfl, h1⟩
  · exact .bind (hf h1 ls) fun a2 b2 h2 => ⟨rfl, h2⟩

end Acc

/-! ## The forest -/

namespace Ram
open Acc

variable {a b : RamForest H}

theorem readIn_like (h : Alike a b) (cs p : ℕ) : readIn a cs p = readIn b cs p := by
  unfold readIn; rw [h.ext]

theorem read_like (h : Alike a b) (p : ℕ) : read a p = read b p := by
  unfold read; rw [h.num, readIn_like h]

theorem readLeafRange_like (h : Alike a b) : ∀ k p : ℕ, readLeafRange a p k = readLeafRange b p k
  | 0, _ => rfl
  | k + 1, p => by unfold readLeafRange; rw [read_like h, readLeafRange_like h k]

theorem swapRange_like (h : Alike a b) (p q k : ℕ) : RelR Alike (swapRange a p q k) (swapRange b p q k) := by
  unfold swapRange
  rw [h.num, h.ext]
  refine .bind (.same rfl) ?_
  rintro _ _ rfl
  refine .bind (.same rfl) ?_
  rintro _ _ rfl
  refine .bind (.same rfl) ?_
  rintro _ _ rfl
  refine .bind (.same rfl) ?_
  rintro _ _ rfl
  refine .bind (.same rfl) ?_
  rintro _ _ rfl
  exact ⟨rfl, h.roots, rfl, h.map⟩

theorem swapTreeLoop_like : ∀ (fuel : ℕ) {a b : RamForest H}, Alike a b → ∀ p q k : ℕ,
    RelR (fun x y => Alike x.1 y.1 ∧ x.2 = y.2) (swapTreeLoop a p q fuel k) (swapTreeLoop b p q fuel k)
  | 0, _, _, _, _, _, _ => rfl
  | fuel + 1, a, b, h, p, q, k => by
    unfold swapTreeLoop
    rw [h.num]
    split
    · exact ⟨h, rfl⟩
    · refine .bind (swapRange_like h _ _ _) ?_
      intro a1 b1 h1
      refine .bind (.same rfl) ?_
      rintro _ _ rfl
      refine .bind (.same rfl) ?_
      rintro _ _ rfl
      exact swapTreeLoop_like fuel h1 _ _ _

theorem swapSubTrees_like (h : Alike a b) (p q : ℕ) :
    RelR (fun x y => x.1 = y.1 ∧ Alike x.2 y.2) (swapSubTrees a p q) (swapSubTrees b p q) := by
  unfold swapSubTrees
  rw [h.num]
  refine .bind (.same rfl) ?_
  rintro _ _ rfl
  refine .bind (.same rfl) ?_
  rintro _ _ rfl
  refine .bind (.same rfl) ?_
  rintro _ _ rfl
  refine .bind (.same rfl) ?_
  rintro _ _ rfl
  refine .bind (.same rfl) ?_
  rintro _ _ rfl
  refine .bind (.same rfl) ?_
  rintro _ _ rfl
  refine .bind (swapTreeLoop_like _ h _ _ _) ?_
  rintro ⟨a1, p1⟩ ⟨b1, _⟩ ⟨h1, rfl⟩
  exact ⟨rfl, h1⟩

theorem mergeRoot_like (h : Alike a b) (p : ℕ) (x : H) :
    RelR (fun x y => x.1 = y.1 ∧ Alike x.2 y.2) (mergeRoot a p x) (mergeRoot b p x) := by
  unfold mergeRoot
  rw [h.num, h.ext, h.roots]
  refine .bind (.same rfl) ?_
  rintro _ _ rfl
  refine .bind (.same rfl) ?_
  rintro _ _ rfl
  refine .bind (.same rfl) ?_
  rintro _ _ rfl
  refine .bind (.same rfl) ?_
  rintro _ _ rfl
  refine .bind (.same rfl) ?_
  rintro _ _ rfl
  refine .bind (.same rfl) ?_
  rintro _ _ rfl
  refine .bind (.same rfl) ?_
  rintro _ _ rfl
  exact ⟨rfl, rfl, rfl, rfl, h.map⟩

theorem newLeaf_like (h : Alike a b) (l : Leaf H) :
    RelR (fun x y => x.1 = y.1 ∧ Alike x.2 y.2) (newLeaf a l) (newLeaf b l) := by
  unfold newLeaf
  rw [h.num, h.ext, h.roots]
  refine .bind (.same rfl) ?_
  rintro _ _ rfl
  refine .bind (.same rfl) ?_
  rintro _ _ rfl
  exact ⟨rfl, rfl, rfl, rfl, h.map.insert _ _⟩

theorem eraseLoop_like (h : Alike a b) : ∀ (k p : ℕ) {m m' : PosMap H}, Like m m' → RelR Like (eraseLoop a p k m) (eraseLoop b p k m')
  | 0, _, _, _, hm => hm
  | k + 1, p, m, m', hm => by
    unfold eraseLoop
    refine .bind (.same (read_like h p)) ?_
    rintro x _ rfl
    exact eraseLoop_like h k _ (hm.erase x)

theorem readRoots_like (h : Alike a b) (n : ℕ) : ∀ ps : List ℕ, readRoots a n ps = readRoots b n ps
  | [] => rfl
  | p :: ps => by unfold readRoots; rw [read_like h, readRoots_like h n ps]

theorem finalizeRemove_like (h : Alike a b) (k : ℕ) : RelR Alike (finalizeRemove a k) (finalizeRemove b k) := by
  unfold finalizeRemove
  rw [h.num]
  refine .bind (.same rfl) ?_
  rintro _ _ rfl
  refine .bind (eraseLoop_like h _ _ h.map) ?_
  intro m m' hm
  refine .bind (.same (by rw [hm.length])) ?_
  rintro _ _ rfl
  refine .bind (.same rfl) ?_
  rintro _ _ rfl
  have h1 : Alike { a with numLeaves := b.numLeaves, posmap := m } { b with posmap := m' } := ⟨rfl, h.roots, h.ext, hm⟩
  refine .bind (.same (readRoots_like h1 _ _)) ?_
  rintro _ _ rfl
  exact ⟨rfl, rfl, h.ext, hm⟩

theorem nodeReHash_like (h : Alike a b) (d : RNode H) : RelR Alike (nodeReHash a d) (nodeReHash b d) := by
  unfold nodeReHash
  refine .bind (.same rfl) ?_
  rintro _ _ rfl
  refine .bind (.same rfl) ?_
  rintro _ _ rfl
  refine .bind (.same (read_like h _)) ?_
  rintro _ _ rfl
  refine .bind (.same (read_like h _)) ?_
  rintro _ _ rfl
  refine .bind (.same rfl) ?_
  rintro _ _ rfl
  refine .bind (.same rfl) ?_
  rintro _ _ rfl
  rw [h.ext]
  refine .bind (.same rfl) ?_
  rintro _ _ rfl
  refine .bind (.same rfl) ?_
  rintro _ _ rfl
  exact h.setExt rfl

theorem blind : Blind (vt : VT H (RNode H) (List (List H))) where
  read h p := by show (do return some (← Ram.read _ p)) = (do return some (← Ram.read _ p)); rw [read_like h]
  readLeafRange h p k := readLeafRange_like h k p
  nodeHash _ _ := rfl
  nodeParent _ _ := rfl
  swapSubTrees := swapSubTrees_like
  mergeRoot := mergeRoot_like
  newLeaf := newLeaf_like
  finalizeRemove := finalizeRemove_like
  nodeReHash := nodeReHash_like

theorem add_like (h : Alike a b) (ls : List (Leaf H)) : RelR Alike (add a ls) (add b ls) := by
  unfold add
  rw [h.num, h.ext]
  refine .bind (.same rfl) ?_
  rintro data _ rfl
  refine .bind (.same rfl) ?_
  rintro _ _ rfl
  refine .bind (Acc.add_like blind ls ⟨rfl, h.roots, rfl, h.map⟩) ?_
  intro a1 b1 h1
  rw [h1.num, h1.map.length]
  refine .bind (.same rfl) ?_
  rintro _ _ rfl
  refine .bind (.same rfl) ?_
  rintro _ _ rfl
  exact h1

theorem undoHashes_like (h : Alike a b) (n : ℕ) : ∀ k p : ℕ, undoHashes a n p k = undoHashes b n p k
  | 0, _ => rfl
  | k + 1, p => by
    unfold undoHashes
    rw [h.ext]
    simp only [readIn_like h, undoHashes_like h n k]

theorem modify_like (h : Alike a b) (ls : List (Leaf H)) (ts : List ℕ) :
    RelR (fun x y => x.1 = y.1 ∧ x.2.1 = y.2.1 ∧ Alike x.2.2 y.2.2) (modify a ls ts) (modify b ls ts) := by
  unfold modify
  refine .bind (remove_like blind h ts) ?_
  rintro ⟨ok, a1⟩ ⟨_, b1⟩ ⟨rfl, h1⟩
  dsimp only at h1 ⊢
  split
  · exact ⟨rfl, rfl, h1⟩
  · refine .bind (.same (by unfold buildUndoBatch; rw [h1.num, undoHashes_like h1])) ?_
    rintro u _ rfl
    cases u with
    | none => exact ⟨rfl, rfl, h1⟩
    | some u => exact .bind (add_like h1 ls) fun a2 b2 h2 => ⟨rfl, rfl, h2⟩

theorem restoreRoots_like (h : Alike a b) : RelR Alike (restoreRoots a) (restoreRoots b) := by
  unfold restoreRoots
  rw [h.num]
  refine .bind (.same rfl) ?_
  rintro _ _ rfl
  refine .bind (.same (readRoots_like h _ _)) ?_
  rintro _ _ rfl
  exact ⟨rfl, rfl, h.ext, h.map⟩

theorem undoErase_like (h : Alike a b) : ∀ (k i : ℕ) {m m' : PosMap H}, Like m m' →
    RelR (fun x y => Like x.1 y.1 ∧ x.2 = y.2) (undoErase a i k m) (undoErase b i k m')
  | 0, _, _, _, hm => ⟨hm, rfl⟩
  | k + 1, i, m, m', hm => by
    unfold undoErase
    refine .bind (.same (read_like h i)) ?_
    rintro x _ rfl
    rw [hm.find x]
    cases PosMap.find m' x with
    | none => exact ⟨hm, rfl⟩
    | some _ => exact undoErase_like h k _ (hm.erase x)

theorem undoPlace_like (n : ℕ) : ∀ (hs : List H) (i : ℕ) (row : List H) {m m' : PosMap H}, Like m m' →
    RelR (fun x y => x.1 = y.1 ∧ Like x.2.1 y.2.1 ∧ x.2.2 = y.2.2) (undoPlace n hs i row m) (undoPlace n hs i row m')
  | [], _, _, _, _, hm => ⟨rfl, hm, rfl⟩
  | x :: hs, i, row, m, m', hm => by
    unfold undoPlace
    split
    · exact ⟨rfl, hm, rfl⟩
    · dsimp only
      rw [hm.find x]
      cases PosMap.find m' x with
      | none => exact undoPlace_like n hs _ _ (hm.insert _ _)
      | some _ => exact ⟨rfl, hm, rfl⟩

theorem undoSwaps_like : ∀ (sws : List St.Swap) {a b : RamForest H}, Alike a b → RelR Alike (undoSwaps sws a) (undoSwaps sws b)
  | [], _, _, h => h
  | sw :: sws, a, b, h => by
    unfold undoSwaps
    refine .bind (updatePosRange_like blind h _ _ _) ?_
    intro a1 b1 h1
    refine .bind (swapRange_like h1 _ _ _) ?_
    intro a2 b2 h2
    exact undoSwaps_like sws h2

theorem undoRehashRow_like : ∀ (ds next : List (RNode H)) {a b : RamForest H}, Alike a b →
    RelR (fun x y => Alike x.1 y.1 ∧ x.2 = y.2) (undoRehashRow ds a next) (undoRehashRow ds b next)
  | [], _, _, _, h => ⟨h, rfl⟩
  | d :: ds, next, a, b, h => by
    unfold undoRehashRow
    refine .bind (nodeReHash_like h d) ?_
    intro a1 b1 h1
    refine .bind (.same (show nodeParent a1 d = nodeParent b1 d from rfl)) ?_
    rintro p _ rfl
    cases p with
    | none => exact undoRehashRow_like ds _ h1
    | some p => exact undoRehashRow_like ds _ h1

theorem undoRehash_like : ∀ (k r : ℕ) (dirt : List (RNode H)) {a b : RamForest H}, Alike a b →
    RelR Alike (undoRehash k r dirt a) (undoRehash k r dirt b)
  | 0, _, _, _, _, h => h
  | k + 1, r, dirt, a, b, h => by
    unfold undoRehash
    rw [h.ext, h.num]
    refine .bind (.same rfl) ?_
    rintro row _ rfl
    refine .bind (.same rfl) ?_
    rintro sz _ rfl
    refine .bind (undoRehashRow_like _ _ ⟨rfl, h.roots, rfl, h.map⟩) ?_
    rintro ⟨a1, d1⟩ ⟨b1, _⟩ ⟨h1, rfl⟩
    exact undoRehash_like k _ _ h1

theorem undo_like (h : Alike a b) (u : UndoBatch H) :
    RelR (fun x y => x.1 = y.1 ∧ Alike x.2 y.2) (undo a u) (undo b u) := by
  unfold undo
  rw [h.ext, h.num]
  split
  · exact ⟨rfl, h⟩
  · refine .bind (.same rfl) ?_
    rintro sws _ rfl
    refine .bind (undoErase_like h _ _ h.map) ?_
    rintro ⟨m1, ok1⟩ ⟨m1', _⟩ ⟨hm1, rfl⟩
    dsimp only at hm1 ⊢
    split
    · exact ⟨rfl, rfl, h.roots, rfl, hm1⟩
    · refine .bind (.same rfl) ?_
      rintro row _ rfl
      refine .bind (undoPlace_like _ _ _ _ hm1) ?_
      rintro ⟨row', m2, ok2⟩ ⟨_, m2', _⟩ ⟨rfl, hm2, rfl⟩
      dsimp only at hm2 ⊢
      split
      · exact ⟨rfl, rfl, h.roots, rfl, hm2⟩
      · refine .bind (undoSwaps_like _ ⟨rfl, h.roots, rfl, hm2⟩) ?_
        intro a3 b3 h3
        refine .bind (.same rfl) ?_
        rintro first _ rfl
        refine .bind (undoRehash_like _ _ _ h3) ?_
        intro a4 b4 h4
        refine .bind (restoreRoots_like h4) ?_
        intro a5 b5 h5
        exact ⟨rfl, h5⟩

theorem verify_like (h : Alike a b) (proof : BatchProof H) (hs : List H) : verify a proof hs = verify b proof hs := by
  unfold verify
  congr 1
  funext x
  rw [h.map.find x]

end Ram

/-! ## The pollard -/

namespace Pol
open Acc

variable {a b : Pollard H}

theorem readSiblings_like (h : Alike a b) (p : ℕ) : readSiblings a p = readSiblings b p := by
  unfold readSiblings; rw [h.num, h.roots, h.ext]

theorem read_like (h : Alike a b) (p : ℕ) : read a p = read b p := by
  unfold read; rw [readSiblings_like h, h.ext]

theorem readLeafRange_like (h : Alike a b) : ∀ k p : ℕ, readLeafRange a p k = readLeafRange b p k
  | 0, _ => rfl
  | k + 1, p => by unfold readLeafRange; rw [read_like h, readLeafRange_like h k]

theorem swapSubTrees_like (h : Alike a b) (p q : ℕ) :
    RelR (fun x y => x.1 = y.1 ∧ Alike x.2 y.2) (swapSubTrees a p q) (swapSubTrees b p q) := by
  unfold swapSubTrees
  refine .bind (.same (readSiblings_like h p)) ?_
  rintro ⟨nf, sf, path⟩ _ rfl
  rw [h.ext]
  refine .bind (.same rfl) ?_
  rintro ⟨sf', heap⟩ _ rfl
  have h1 : Alike { a with ext := heap } { b with ext := heap } := h.setExt rfl
  dsimp only
  rw [readSiblings_like h1]
  split
  · rw [pure_bind, pure_bind]
    refine .bind (.same rfl) ?_
    rintro heap2 _ rfl
    exact ⟨rfl, h.setExt rfl⟩
  · refine .bind (.same rfl) ?_
    rintro ⟨nt, st0, path'⟩ _ rfl
    refine .bind (.same rfl) ?_
    rintro ⟨st, heap'⟩ _ rfl
    rw [pure_bind, pure_bind]
    refine .bind (.same rfl) ?_
    rintro heap2 _ rfl
    exact ⟨rfl, h.setExt rfl⟩

theorem mergeRoot_like (h : Alike a b) (p : ℕ) (x : H) :
    RelR (fun x y => x.1 = y.1 ∧ Alike x.2 y.2) (mergeRoot a p x) (mergeRoot b p x) := by
  unfold mergeRoot
  rw [h.roots, h.ext]
  split
  · refine .bind (.same rfl) ?_
    rintro _ _ rfl
    refine .bind (.same rfl) ?_
    rintro _ _ rfl
    refine .bind (.same rfl) ?_
    rintro _ _ rfl
    refine .bind (.same rfl) ?_
    rintro _ _ rfl
    refine .bind (.same rfl) ?_
    rintro _ _ rfl
    refine .bind (.same rfl) ?_
    rintro _ _ rfl
    refine .bind (.same rfl) ?_
    rintro _ _ rfl
    dsimp only
    split
    · refine .bind (.same rfl) ?_
      rintro _ _ rfl
      exact ⟨rfl, h.num, rfl, rfl, h.map⟩
    · exact ⟨rfl, h.num, rfl, rfl, h.map⟩
  · rfl

theorem newLeaf_like (h : Alike a b) (l : Leaf H) :
    RelR (fun x y => x.1 = y.1 ∧ Alike x.2 y.2) (newLeaf a l) (newLeaf b l) := by
  unfold newLeaf
  rw [h.num, h.ext, h.roots]
  refine ⟨rfl, rfl, rfl, rfl, ?_⟩
  dsimp only
  split
  · exact h.map.insert _ _
  · exact h.map

theorem eraseLoop_like (h : Alike a b) : ∀ (k p : ℕ) {m m' : PosMap H}, Like m m' → RelR Like (eraseLoop a p k m) (eraseLoop b p k m')
  | 0, _, _, _, hm => hm
  | k + 1, p, m, m', hm => by
    unfold eraseLoop
    refine .bind (.same (read_like h p)) ?_
    rintro x _ rfl
    cases x with
    | some x => exact eraseLoop_like h k _ (hm.erase x)
    | none => exact eraseLoop_like h k _ hm

theorem selectRoots_like : ∀ (ps : List ℕ) (acc : List PNode) {a b : Pollard H}, Alike a b →
    RelR (fun x y => Alike x.1 y.1 ∧ x.2 = y.2) (selectRoots a ps acc) (selectRoots b ps acc)
  | [], _, _, _, h => ⟨h, rfl⟩
  | p :: ps, acc, a, b, h => by
    unfold selectRoots
    refine .bind (.same (readSiblings_like h p)) ?_
    rintro ⟨node, sib, path⟩ _ rfl
    rw [h.ext]
    refine .bind (.same rfl) ?_
    rintro x _ rfl
    dsimp only
    cases sib with
    | some q =>
      refine .bind (.same rfl) ?_
      rintro y _ rfl
      refine .bind (.same rfl) ?_
      rintro heap _ rfl
      exact selectRoots_like ps _ (h.setExt rfl)
    | none =>
      refine .bind (.same rfl) ?_
      rintro heap _ rfl
      exact selectRoots_like ps _ (h.setExt rfl)

theorem finalizeRemove_like (h : Alike a b) (k : ℕ) : RelR Alike (finalizeRemove a k) (finalizeRemove b k) := by
  unfold finalizeRemove
  rw [h.num]
  refine .bind (eraseLoop_like h _ _ h.map) ?_
  intro m m' hm
  refine .bind (.same (by dsimp only)) ?_
  rintro ps _ rfl
  refine .bind (selectRoots_like _ _ ⟨rfl, h.roots, h.ext, hm⟩) ?_
  rintro ⟨a1, r1⟩ ⟨b1, _⟩ ⟨h1, rfl⟩
  exact ⟨h1.num, rfl, h1.ext, h1.map⟩

theorem nodeReHash_like (h : Alike a b) (d : PNode) : RelR Alike (nodeReHash a d) (nodeReHash b d) := by
  unfold nodeReHash
  rw [h.ext]
  refine .bind (.same rfl) ?_
  rintro x _ rfl
  split
  · refine .bind (.same rfl) ?_
    rintro _ _ rfl
    refine .bind (.same rfl) ?_
    rintro _ _ rfl
    refine .bind (.same rfl) ?_
    rintro _ _ rfl
    refine .bind (.same rfl) ?_
    rintro _ _ rfl
    refine .bind (.same rfl) ?_
    rintro _ _ rfl
    exact h.setExt rfl
  · exact h

theorem blind : Blind (vt : VT H PNode (List (INode H))) where
  read := read_like
  readLeafRange h p k := readLeafRange_like h k p
  nodeHash h d := by show nodeHash _ d = nodeHash _ d; unfold nodeHash; rw [h.ext]
  nodeParent _ _ := rfl
  swapSubTrees := swapSubTrees_like
  mergeRoot := mergeRoot_like
  newLeaf := newLeaf_like
  finalizeRemove := finalizeRemove_like
  nodeReHash := nodeReHash_like

theorem modify_like (h : Alike a b) (ls : List (Leaf H)) (ts : List ℕ) :
    RelR (fun x y => x.1 = y.1 ∧ Alike x.2 y.2) (modify a ls ts) (modify b ls ts) :=
  Acc.modify_like blind (fun h ls => Acc.add_like blind ls h) h ls ts

theorem pruneAll_like (h : Alike a b) : RelR Alike (pruneAll a) (pruneAll b) := by
  unfold pruneAll
  rw [h.roots, h.ext]
  refine .bind (.same rfl) ?_
  rintro heap _ rfl
  refine .bind (.same rfl) ?_
  rintro _ _ rfl
  exact ⟨h.num, rfl, rfl, h.map⟩

theorem rememberTargets_like : ∀ (hs : List H) (ps : List ℕ) {m m' : PosMap H}, Like m m' →
    RelR Like (rememberTargets hs ps m) (rememberTargets hs ps m')
  | [], _, _, _, h => h
  | _ :: _, [], _, _, _ => rfl
  | x :: hs, p :: ps, _, _, h => rememberTargets_like hs ps (h.insert x p)

theorem verify_like (h : Alike a b) (proof : BatchProof H) (hs : List H) :
    RelR (fun x y => x.1 = y.1 ∧ Alike x.2 y.2) (verify a proof hs) (verify b proof hs) := by
  have hc : createProofTree a proof = createProofTree b proof := by
    unfold createProofTree
    rw [h.num, h.roots, h.ext]
  unfold verify
  rw [h.num, hc]
  split
  · exact ⟨rfl, h⟩
  · refine .bind (.same rfl) ?_
    rintro ok _ rfl
    split
    · exact ⟨rfl, h⟩
    · split
      · exact ⟨rfl, h⟩
      · refine .bind (.same rfl) ?_
        rintro ⟨ok, c, tree⟩ _ rfl
        dsimp only
        split
        · refine .bind (.same rfl) ?_
          rintro ⟨ok, t⟩ _ rfl
          dsimp only
          split
          · refine .bind (.same rfl) ?_
            rintro heap _ rfl
            exact ⟨rfl, rfl, rfl, rfl, h.map⟩
          · refine .bind (rememberTargets_like _ _ h.map) ?_
            intro m m' hm
            exact ⟨rfl, rfl, rfl, rfl, hm⟩
        · rw [pure_bind, pure_bind]
          dsimp only
          split
          · refine .bind (.same rfl) ?_
            rintro heap _ rfl
            exact ⟨rfl, rfl, rfl, rfl, h.map⟩
          · refine .bind (rememberTargets_like _ _ h.map) ?_
            intro m m' hm
            exact ⟨rfl, rfl, rfl, rfl, hm⟩

end Pol
end Utreexo
