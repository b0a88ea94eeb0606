import Verif.Props.Order
import Verif.Props.Compare
import Verif.Props.Wire

/-!
# C59: reorganisations

A node that follows a chain connects blocks (`Modify`), disconnects the last ones when the chain is reorganised (`Undo`, with
the batches it kept, in memory or as bytes), and is stopped and started (`Commit`, then the constructor with `Restore`), all in any
order. The specification forgets the disconnected blocks and the restarts: `net` is the list of the blocks that are connected in
the end.
-/

set_option linter.unusedSectionVars false

namespace Utreexo

open Spec Equiv

variable {H : Type} [DecidableEq H] [HashOps H]

namespace Ram

/-- What happens to a node. After a restart it goes on with the newest `keep` undo batches. -/
inductive Event (H : Type) where
  | connect (leaves : List (Leaf H)) (targets : List ℕ)
  | disconnect
  | restart (keep : ℕ)

/-- How a node keeps its undo batches. -/
structure Store (H β : Type) where
  put : UndoBatch H → Res β
  get : β → Res (Bool × UndoBatch H)

/-- As objects. -/
def inMemory : Store H (UndoBatch H) := ⟨.ok, fun u => .ok (true, u)⟩

/-- Written with `Serialize` into an empty vector, read with `Unserialize` into some object. -/
def asBytes (b1 b2 : Bool) (prev : UndoBatch Hash32) : Store Hash32 (List Byte) :=
  ⟨fun u => Batch.serializeUndo b1 u [], fun bytes => Batch.unserializeUndo b2 prev bytes⟩

/-- The node: `Modify` for a connected block, keeping the undo batch; `Undo` with the newest batch for a disconnected one. -/
def follow {β : Type} (k : Store H β) : List (Event H) → RamForest H → List β → Res (RamForest H × List β)
  | [], s, us => .ok (s, us)
  | .connect leaves targets :: es, s, us => do
    match ← modify s leaves targets with
    | (true, some u, s') => do
      let b ← k.put u
      follow k es s' (b :: us)
    | _ => .error .exc
  | .disconnect :: es, s, b :: us => do
    match ← k.get b with
    | (true, u) => do
      match ← undo s u with
      | (true, s') => follow k es s' us
      | _ => .error .exc
    | _ => .error .exc
  | .disconnect :: _, _, [] => .error .exc
  | .restart keep :: es, s, us => do
    let s' ← reopen s
    follow k es s' (us.take keep)

/-- The blocks still connected after the events, the newest first. -/
def net : List (Event H) → List (List (Leaf H) × List ℕ) → List (List (Leaf H) × List ℕ)
  | [], cs => cs
  | .connect leaves targets :: es, cs => net es ((leaves, targets) :: cs)
  | .disconnect :: es, cs => net es cs.tail
  | .restart _ :: es, cs => net es cs

/-- The number of batches kept after the events. -/
def batchesKept : List (Event H) → ℕ → ℕ
  | [], n => n
  | .connect _ _ :: es, n => batchesKept es (n + 1)
  | .disconnect :: es, n => batchesKept es (n - 1)
  | .restart keep :: es, n => batchesKept es (min keep n)

/-- The leaves after the given blocks, the newest first. -/
def leavesOf (cs : List (List (Leaf H) × List ℕ)) : List H := cs.reverse.foldl leavesAfter []

/-- Every block fits the leaves at the time and is small enough; a block is disconnected only if a batch is left; the batches used
after a restart lead back to forests of at most `2^k` leaves, where `k` is the number of binary digits of the number of leaves at
the restart (C38). `cs` are the blocks connected before, `n` the number of batches. -/
def ValidEvents (small : List (Leaf H) → List ℕ → Prop) : List (Event H) → List (List (Leaf H) × List ℕ) → ℕ → Prop
  | [], _, _ => True
  | .connect leaves targets :: es, cs, n => Valid (leavesOf cs) (leaves.map Prod.fst) targets ∧ small leaves targets ∧
    ValidEvents small es ((leaves, targets) :: cs) (n + 1)
  | .disconnect :: es, cs, n => 0 < n ∧ ValidEvents small es cs.tail (n - 1)
  | .restart keep :: es, cs, n => (∀ i < min keep n, (leavesOf (cs.drop (i + 1))).length ≤ 2 ^ Nat.size (leavesOf cs).length) ∧
    ValidEvents small es cs (min keep n)

/-- The batches kept belong to the newest blocks. -/
inductive Kept {β : Type} (k : Store H β) : List β → List (UndoBatch H × RamForest H) → List (List (Leaf H) × List ℕ) → Prop
  | nil {cs : List (List (Leaf H) × List ℕ)} : ValidCalls [] cs.reverse → Kept k [] [] cs
  | cons {b : β} {bs : List β} {st : List (UndoBatch H × RamForest H)} {cs : List (List (Leaf H) × List ℕ)} {u : UndoBatch H}
      {s0 : RamForest H} {c : List (Leaf H) × List ℕ} : k.get b = .ok (true, u) → Represents s0 (leavesOf cs) →
      Valid (leavesOf cs) (c.1.map Prod.fst) c.2 → Kept k bs st cs → Kept k (b :: bs) ((u, s0) :: st) (c :: cs)

theorem leavesOf_cons (c : List (Leaf H) × List ℕ) (cs : List (List (Leaf H) × List ℕ)) :
    leavesOf (c :: cs) = leavesAfter (leavesOf cs) c := by
  simp [leavesOf, List.foldl_append]

theorem validCalls_append (L : List H) (cs ds : List (List (Leaf H) × List ℕ)) (h1 : ValidCalls L cs)
    (h2 : ValidCalls (cs.foldl leavesAfter L) ds) : ValidCalls L (cs ++ ds) := by
  induction cs generalizing L with
  | nil => exact h2
  | cons c cs ih => exact ⟨h1.1, ih _ h1.2 h2⟩

variable {β : Type} {k : Store H β}

theorem Kept.valid {bs : List β} {st : List (UndoBatch H × RamForest H)} {cs : List (List (Leaf H) × List ℕ)} (h : Kept k bs st cs) :
    ValidCalls [] cs.reverse := by
  induction h with
  | nil h => exact h
  | cons _ h1 h2 _ ih =>
    rw [List.reverse_cons]
    exact validCalls_append _ _ _ ih ⟨h2, trivial⟩

theorem Kept.length {bs : List β} {st : List (UndoBatch H × RamForest H)} {cs : List (List (Leaf H) × List ℕ)} (h : Kept k bs st cs) :
    st.length = bs.length := by
  induction h with
  | nil _ => rfl
  | cons _ _ _ _ ih => simp [ih]

/-- Forgetting the oldest batches. -/
theorem Kept.take {bs : List β} {st : List (UndoBatch H × RamForest H)} {cs : List (List (Leaf H) × List ℕ)} (h : Kept k bs st cs)
    (n : ℕ) : Kept k (bs.take n) (st.take n) cs := by
  induction h generalizing n with
  | nil h => simpa using Kept.nil h
  | @cons b bs st cs u s0 c h0 h1 h2 h3 ih =>
    cases n with
    | zero => simpa using Kept.nil (Kept.cons (u := u) h0 h1 h2 h3).valid
    | succ n => exact .cons h0 h1 h2 (ih n)

theorem Kept.bound {bs : List β} {st : List (UndoBatch H × RamForest H)} {cs : List (List (Leaf H) × List ℕ)} (h : Kept k bs st cs)
    (B n : ℕ) (hb : ∀ i < min n bs.length, (leavesOf (cs.drop (i + 1))).length ≤ B) : ∀ e ∈ st.take n, e.2.numLeaves ≤ B := by
  induction h generalizing n with
  | nil h => simp
  | @cons b bs st cs u s0 c h0 h1 h2 h3 ih =>
    cases n with
    | zero => simp
    | succ n =>
      intro e he
      rw [List.take_succ_cons, List.mem_cons] at he
      rcases he with rfl | he
      · rw [h1.count]; exact hb 0 (by simp)
      · exact ih n (fun i hi => hb (i + 1) (by simp only [List.length_cons]; omega)) e he

theorem Represents.of_same {s t : RamForest H} {L : List H} (h : Same s t) (hL : Represents t L) : Represents s L := by
  refine ⟨by rw [h.count]; exact hL.count, ?_, by rw [h.roots]; exact hL.roots, by rw [h.size]; exact hL.size, ?_⟩
  · intro i x hx; rw [h.leaf]; exact hL.leaf i x hx
  · intro x p; rw [h.find]; exact hL.find x p

/-- What is kept of a small block is read back. -/
def Sound (k : Store H β) (small : List (Leaf H) → List ℕ → Prop) : Prop :=
  ∀ (s : RamForest H) (st : List (UndoBatch H × RamForest H)) (L : List H) (leaves : List (Leaf H)) (targets : List ℕ) (u : UndoBatch H)
    (s' : RamForest H), Run s st → Represents s L → Valid L (leaves.map Prod.fst) targets → small leaves targets →
    modify s leaves targets = .ok (true, some u, s') → ∃ b, k.put u = .ok b ∧ k.get b = .ok (true, u)

/-- The node never fails, holds the leaves of the connected blocks and the batches of the newest of them. -/
theorem follow_ok {small : List (Leaf H) → List ℕ → Prop} (hk : Sound k small) (es : List (Event H)) :
    ∀ (s : RamForest H) (bs : List β) (st : List (UndoBatch H × RamForest H)) (cs : List (List (Leaf H) × List ℕ)), Run s st →
    Kept k bs st cs → Represents s (leavesOf cs) → ValidEvents small es cs bs.length →
    ∃ s' bs' st', follow k es s bs = .ok (s', bs') ∧ Run s' st' ∧ Kept k bs' st' (net es cs) ∧
      Represents s' (leavesOf (net es cs)) ∧ bs'.length = batchesKept es bs.length := by
  induction es with
  | nil => intro s bs st cs h1 h2 h3 _; exact ⟨s, bs, st, rfl, h1, h2, h3, rfl⟩
  | cons e es ih =>
    intro s bs st cs h1 h2 h3 hv
    cases e with
    | connect leaves targets =>
      obtain ⟨v1, v2, v3⟩ := hv
      obtain ⟨u, s1, e1, e2, e3⟩ := C56_order s st h1 _ h3 leaves targets v1
      obtain ⟨b, f1, f2⟩ := hk s st _ leaves targets u s1 h1 h3 v1 v2 e1
      have h3' : Represents s1 (leavesOf ((leaves, targets) :: cs)) := by rw [leavesOf_cons]; exact e3
      obtain ⟨s', bs', st', k1, k2⟩ := ih s1 (b :: bs) ((u, s) :: st) _ e2 (.cons f2 h3 v1 h2) h3' v3
      refine ⟨s', bs', st', ?_, k2⟩
      rw [follow, e1, ok_bind]
      simp only [f1, ok_bind]
      exact k1
    | disconnect =>
      obtain ⟨v1, v2⟩ := hv
      cases h2 with
      | nil _ => exact absurd v1 (by simp)
      | @cons b bs st cs u s0 c g0 g1 g2 g3 =>
        cases C21_unwind _ _ h1 with
        | @step _ s1 _ _ _ a1 a2 _ =>
          obtain ⟨s', bs', st', k1, k2⟩ := ih s1 bs st cs (.undo h1 a1) g3 (.of_same a2 g1) v2
          refine ⟨s', bs', st', ?_, k2⟩
          rw [follow, g0, ok_bind]
          simp only [a1, ok_bind]
          exact k1
    | restart keep =>
      obtain ⟨v1, v2⟩ := hv
      obtain ⟨n, f, i1, i2, -⟩ := h1.inv
      obtain ⟨s1, e1, e2, -⟩ := reopen_ok i1 i2
      have hs : Same s1 s := (e2.represents i2).same (i1.represents i2)
      have hlen : (bs.take keep).length = min keep bs.length := List.length_take
      have hr : Run s1 (st.take keep) := .reopen h1 e1 (List.take_prefix _ _) (by rw [h3.count]; exact h2.bound _ _ v1)
      obtain ⟨s', bs', st', k1, k2, k3, k4, k5⟩ := ih s1 (bs.take keep) (st.take keep) cs hr (h2.take keep) (.of_same hs h3)
        (by rw [hlen]; exact v2)
      rw [hlen] at k5
      refine ⟨s', bs', st', ?_, k2, k3, k4, k5⟩
      rw [follow, e1, ok_bind]
      exact k1

theorem mk_represents : Represents (mk 0 : RamForest H) [] := Ram.mk_inv.represents (f := leafFn HashOps.zero []) (by omega)

theorem inMemory_sound : Sound (inMemory : Store H (UndoBatch H)) fun _ _ => True :=
  fun _ _ _ _ _ u _ _ _ _ _ _ => ⟨u, rfl, rfl⟩

/-- A block whose undo batch fits the byte format. -/
def smallBlock (leaves : List (Leaf Hash32)) (targets : List ℕ) : Prop := targets.length ≤ 2 ^ 25 ∧ leaves.length < 2 ^ 32

theorem asBytes_sound [HashOps Hash32] (b1 b2 : Bool) (prev : UndoBatch Hash32) : Sound (asBytes b1 b2 prev) smallBlock := by
  intro s st L leaves targets u s' h1 h2 h3 h4 h5
  obtain ⟨u', s'', e1, e2, e3, -⟩ := C46_batch s st h1 L h2 leaves targets h3
  rw [h5] at e1
  injection e1 with e1
  simp only [Prod.mk.injEq, Option.some.injEq, true_and] at e1
  obtain ⟨rfl, rfl⟩ := e1
  exact C46_roundtrip b1 b2 s' _ (.modify h1 h2 h3 h5) u s List.mem_cons_self (by rw [e3]; exact h4.1) (by rw [e2]; exact h4.2) prev []

end Ram

open Ram

/-- C59: after any mix of connected and disconnected blocks and restarts the forest is the one that only saw the blocks connected in
the end: a forest to which just these are given compares equal with `operator==` and shows the same to every caller, and both hold
the leaves computed from these blocks by the rule. -/
theorem C59_forest (es : List (Event H)) (hv : ValidEvents (fun _ _ => True) es [] 0) :
    ∃ s us t, follow inMemory es (mk 0) [] = .ok (s, us) ∧ calls (net es []).reverse (mk 0) = .ok t ∧ Same s t ∧
      Ram.equal s t = .ok true ∧ us.length = batchesKept es 0 ∧ Represents s ((net es []).reverse.foldl leavesAfter []) := by
  obtain ⟨s, us, st, a1, a2, a3, a4, a5⟩ := follow_ok inMemory_sound es (mk 0) [] [] [] Run.empty (.nil trivial) mk_represents hv
  obtain ⟨t, tt, b1, b2, b3⟩ := C56_calls (mk 0) [] Run.empty [] mk_represents _ a3.valid
  refine ⟨s, us, t, a1, b1, a4.same b3, ?_, a5, a4⟩
  have := C48_forest s t st tt a2 b2 _ _ a4 b3
  simpa [leavesOf] using this

/-- C59: the same with the undo batches kept as bytes, for blocks of at most `2^25` deletions and less than `2^32` additions. -/
theorem C59_bytes [HashOps Hash32] (b1 b2 : Bool) (prev : UndoBatch Hash32) (es : List (Event Hash32)) (hv : ValidEvents smallBlock es [] 0) :
    ∃ s us t, follow (asBytes b1 b2 prev) es (mk 0) [] = .ok (s, us) ∧ calls (net es []).reverse (mk 0) = .ok t ∧ Same s t ∧
      Ram.equal s t = .ok true ∧ us.length = batchesKept es 0 ∧ Represents s ((net es []).reverse.foldl leavesAfter []) := by
  obtain ⟨s, us, st, a1, a2, a3, a4, a5⟩ := follow_ok (asBytes_sound b1 b2 prev) es (mk 0) [] [] [] Run.empty (.nil trivial) mk_represents hv
  obtain ⟨t, tt, c1, c2, c3⟩ := C56_calls (mk 0) [] Run.empty [] mk_represents _ a3.valid
  refine ⟨s, us, t, a1, c1, a4.same c3, ?_, a5, a4⟩
  have := C48_forest s t st tt a2 c2 _ _ a4 c3
  simpa [leavesOf] using this

/-- C59: the way to the connected blocks does not matter. Two nodes that went through different reorganisations and restarts and have
the same blocks connected show the same, now and after every further sequence of events. -/
theorem C59_nodes (es fs gs : List (Event H)) (h1 : ValidEvents (fun _ _ => True) (es ++ gs) [] 0)
    (h2 : ValidEvents (fun _ _ => True) (fs ++ gs) [] 0) (h : net es [] = net fs []) :
    ∃ s t us vs, follow inMemory (es ++ gs) (mk 0) [] = .ok (s, us) ∧ follow inMemory (fs ++ gs) (mk 0) [] = .ok (t, vs) ∧
      Same s t ∧ Ram.equal s t = .ok true := by
  have key : ∀ (es gs : List (Event H)) (cs : List (List (Leaf H) × List ℕ)), net (es ++ gs) cs = net gs (net es cs) := by
    intro es gs
    induction es with
    | nil => intro cs; rfl
    | cons e es ih => intro cs; cases e <;> exact ih _
  obtain ⟨s, us, st, a1, a2, a3, a4, -⟩ := follow_ok inMemory_sound _ (mk 0) [] [] [] Run.empty (.nil trivial) mk_represents h1
  obtain ⟨t, vs, tt, b1, b2, b3, b4, -⟩ := follow_ok inMemory_sound _ (mk 0) [] [] [] Run.empty (.nil trivial) mk_represents h2
  rw [key] at a4 b4
  rw [h] at a4
  refine ⟨s, t, us, vs, a1, b1, a4.same b4, ?_⟩
  have := C48_forest s t st tt a2 b2 _ _ a4 b4
  simpa using this

open Pol in
/-- C59: a pollard has no `Undo`; after a reorganisation a light client restores one from the roots. It follows every further
history of valid blocks and reports the roots of the leaves computed by the rule from the blocks connected in the end alone. -/
theorem C59_pollard (es : List (Event H)) (hv : ValidEvents (fun _ _ => True) es [] 0) (S : List H)
    (hS : S = (net es []).reverse.foldl leavesAfter []) (bs : List (Block H)) (hb : ValidBlocks S bs) :
    ∃ s us rs p F p', follow inMemory es (Ram.mk 0) [] = .ok (s, us) ∧ Ram.roots s = .ok rs ∧ Pol.fromRoots rs s.numLeaves = .ok p ∧
      play bs s p = .ok (F, p') ∧ p'.numLeaves = (bs.foldl afterBlock S).length ∧
      Pol.roots p' = .ok (merkleRoots HashOps.ph (leafFn HashOps.zero (bs.foldl afterBlock S)) (bs.foldl afterBlock S).length) := by
  obtain ⟨s, us, st, a1, a2, a3, a4, -⟩ := follow_ok inMemory_sound es (Ram.mk 0) [] [] [] Run.empty (.nil trivial) mk_represents hv
  obtain ⟨rs, p, b1, b2, -, -, b5⟩ := C29_restore s st a2
  have a4' : Represents s S := by rw [hS]; exact a4
  obtain ⟨F, st', p', c1, c2, c3⟩ := Pol.play_order bs S S s st p b5 a4' (List.Perm.refl _) hb
  obtain ⟨k1, rs', k2, k3⟩ := C23_agree F st' p' c2
  refine ⟨s, us, rs, p, F, p', a1, b1, b2, c1, by rw [k1, c3.count], ?_⟩
  rw [k3, ← c3.roots, k2]

/-! ## Concrete cases -/

section Examples

attribute [local instance] toyOps

/-- Twelve leaves; a block that is disconnected, a restart, another block in its place, a third one that is disconnected too. -/
def toyEvents : List (Event ℕ) :=
  [.connect ((List.range 12).map fun i => (10 + i, false)) [], .connect [(31, false)] [1, 4, 5], .disconnect, .restart 1,
   .connect [(41, false), (15, true)] [0, 5, 7, 11], .connect [(31, false)] [2], .restart 7, .disconnect]

/-- It meets the hypothesis of `C59_forest`. -/
example : ValidEvents (fun _ _ => True) toyEvents [] 0 :=
  ⟨⟨by decide, by decide, by decide, by decide, by decide, by decide⟩, trivial,
   ⟨by decide, by decide, by decide, by decide, by decide, by decide⟩, trivial, by decide, by decide +kernel,
   ⟨by decide, by decide, by decide, by decide, by decide, by decide⟩, trivial,
   ⟨by decide, by decide, by decide, by decide, by decide, by decide⟩, trivial, by decide +kernel, by decide, trivial⟩

example : (net toyEvents []).reverse.map Prod.snd = [[], [0, 5, 7, 11]] := by decide

example : leavesOf (net toyEvents []) = [14, 11, 12, 13, 18, 19, 16, 20, 41, 15] := by decide +kernel

example : (do let (s, us) ← follow inMemory toyEvents (mk 0) []
              return ([← getLeaf s 0, ← getLeaf s 1, ← getLeaf s 8, ← getLeaf s 9], us.length, batchesKept toyEvents 0)) =
    .ok ([14, 11, 41, 15], 2, 2) := by decide +kernel

end Examples

end Utreexo
