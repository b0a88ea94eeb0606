import Verif.Props.Order

/-!
# Property C86: the additions of a block can be handed over in pieces

A node that receives a block in parts may call `Modify` with the deletions and the first new leaves, and then once for each further part.
(The deletions must come in one call, `C56_split_witness`.)
-/

set_option linter.unusedSectionVars false

namespace Utreexo

open Spec Equiv

variable {H : Type} [DecidableEq H] [HashOps H]

namespace Pol

/-- Calls of `Modify` that only add, up to the first one that returns `false`. -/
def inPieces : List (List (Leaf H)) → Pollard H → Res (Bool × Pollard H)
  | [], p => .ok (true, p)
  | c :: cs, p => do
    let (b, p1) ← modify p c []
    if b then inPieces cs p1 else return (false, p1)

theorem modify_adds (p : Pollard H) (a : List (Leaf H)) : modify p a [] = (Acc.add vt p a).bind fun s => .ok (true, s) := rfl

theorem add_append (p : Pollard H) (a b : List (Leaf H)) : Acc.add vt p (a ++ b) = (Acc.add vt p a).bind fun s => Acc.add vt s b := by
  unfold Acc.add
  rw [List.foldlM_append]
  rfl

theorem pieces_add : ∀ (cs : List (List (Leaf H))) (p : Pollard H), inPieces cs p = (Acc.add vt p cs.flatten).bind fun s => .ok (true, s)
  | [], p => rfl
  | c :: cs, p => by
    rw [inPieces, List.flatten_cons, add_append, modify_adds]
    cases h : Acc.add vt p c with
    | error e => rfl
    | ok s => exact pieces_add cs s

end Pol

/-- C86: a pollard in any state: one call with all new leaves and the calls with the pieces give the same result, object by object, also
when a call fails. -/
theorem C86_pollard (p : Pollard H) (targets : List ℕ) (first : List (Leaf H)) (rest : List (List (Leaf H))) :
    Pol.modify p (first ++ rest.flatten) targets =
      (do let (b, p1) ← Pol.modify p first targets
          if b then Pol.inPieces rest p1 else return (false, p1)) := by
  unfold Pol.modify Acc.modify
  cases h : Acc.remove Pol.vt p targets with
  | error e => rfl
  | ok r =>
    obtain ⟨b, s⟩ := r
    cases b with
    | false => rfl
    | true =>
      simp only [bind, Except.bind, pure, Except.pure, Bool.not_true, Bool.false_eq_true, if_false]
      rw [Pol.add_append]
      cases h2 : Acc.add Pol.vt s first with
      | error e => rfl
      | ok s1 =>
        simp only [Except.bind, if_true]
        rw [Pol.pieces_add]
        rfl

namespace Ram

theorem delete_length {L : List H} {D : List ℕ} (hs : D.Pairwise (· < ·)) (hb : ∀ t ∈ D, t < L.length) (hl : L.length ≤ 2 ^ 62) :
    (deleteLeaves L D).length = L.length - D.length := by
  have hlen : D.length ≤ L.length := by
    have := sorted_length_add_le D 0 L.length hs (fun x hx => ⟨Nat.zero_le _, hb x hx⟩) (Nat.zero_le _)
    omega
  have := Settle.deleteLeaves_eq hs hb (le_two_pow_numRows (by omega)) (n' := L.length - D.length) (by omega) (leafFn HashOps.zero L)
  have hL' : L = (List.range L.length).map (leafFn HashOps.zero L) := by
    apply List.ext_getElem
    · simp
    · intro i h1 h2
      simp only [List.getElem_map, List.getElem_range, leafFn]
      rw [List.getD_eq_getElem?_getD, List.getElem?_eq_getElem h1]; rfl
  rw [← hL'] at this
  rw [this]; simp

theorem survivors_none (L : List H) : survivors L [] = L := by
  unfold survivors
  rw [List.filter_eq_self.2 (by simp)]
  simp

theorem valid_pieces : ∀ (rest : List (List (Leaf H))) (L : List H) (D : List ℕ) (first : List (Leaf H)), L.length ≤ 2 ^ 62 →
    Valid L ((first ++ rest.flatten).map Prod.fst) D → ValidCalls L ((first, D) :: rest.map fun c => (c, []))
  | rest, L, D, first, hl, hv => by
    have hlen : (deleteLeaves L D).length = L.length - D.length := delete_length hv.sorted hv.bound hl
    have hd := hv.distinct
    rw [List.map_append, List.nodup_append] at hd
    have ht := hv.total
    rw [List.length_map, List.length_append] at ht
    refine ⟨⟨hv.sorted, hv.bound, hd.1, fun h hh hm => hv.fresh h hh (by rw [List.map_append]; exact List.mem_append_left _ hm), hv.size, ?_⟩, ?_⟩
    · rw [List.length_map]
      dsimp only
      omega
    · cases rest with
      | nil => trivial
      | cons c rest =>
        rw [List.flatten_cons] at hd ht
        refine valid_pieces rest _ [] c ?_ ⟨List.Pairwise.nil, by simp, hd.2.1, ?_, by simp, ?_⟩
        · unfold leavesAfter
          rw [List.length_append, List.length_map, hlen]
          dsimp only
          omega
        · intro h hh
          rw [survivors_none] at hh
          unfold leavesAfter at hh
          rcases List.mem_append.1 hh with hh | hh
          · intro hm
            refine hv.fresh h ((C56_survivors L D hv.sorted hv.bound hl).mem_iff.1 hh) ?_
            rw [List.map_append, List.flatten_cons]
            exact List.mem_append_right _ hm
          · intro hm
            exact hd.2.2 h hh h hm rfl
        · unfold leavesAfter
          rw [List.length_append, List.length_map, hlen, List.length_nil, List.length_map]
          dsimp only
          omega

theorem leaves_pieces : ∀ (rest : List (List (Leaf H))) (L : List H), L.length + rest.flatten.length ≤ 2 ^ 62 →
    (rest.map fun c => (c, ([] : List ℕ))).foldl leavesAfter L = L ++ rest.flatten.map Prod.fst
  | [], L, _ => by simp
  | c :: rest, L, h => by
    rw [List.flatten_cons, List.length_append] at h
    rw [List.map_cons, List.foldl_cons, leaves_pieces rest]
    · unfold leavesAfter
      dsimp only
      rw [C56_nothing L (by omega), List.flatten_cons, List.map_append, List.append_assoc]
    · unfold leavesAfter
      dsimp only
      rw [C56_nothing L (by omega), List.length_append, List.length_map]
      omega

/-- The calls one after the other, with the batches they write. -/
theorem calls_stack : ∀ (cs : List (List (Leaf H) × List ℕ)) (s : RamForest H) (st : List (UndoBatch H × RamForest H)) (L : List H), Run s st →
    Represents s L → ValidCalls L cs → ∃ s' top, calls cs s = .ok s' ∧ Run s' (top ++ st) ∧ top.length = cs.length ∧ Represents s' (cs.foldl leavesAfter L) ∧
      (∀ e, top.getLast? = some e → e.2 = s)
  | [], s, st, L, h, hL, _ => ⟨s, [], rfl, h, rfl, hL, by simp⟩
  | c :: cs, s, st, L, h, hL, hv => by
    obtain ⟨u, s1, e1, e2, e3⟩ := C56_order s st h L hL c.1 c.2 hv.1
    obtain ⟨s', top, g1, g2, g3, g4, -⟩ := calls_stack cs s1 ((u, s) :: st) _ e2 e3 hv.2
    refine ⟨s', top ++ [(u, s)], ?_, ?_, by simp [g3], g4, by simp⟩
    · rw [calls, e1, ok_bind]
      exact g1
    · rw [List.append_assoc]
      exact g2

end Ram

open Ram

/-- C86: the forest shows the same after one call and after the calls with the pieces, and the batches written by the pieces, undone last in
first out, lead back to where the block began. -/
theorem C86_forest (s : RamForest H) (st : List (UndoBatch H × RamForest H)) (h : Run s st) (L : List H) (hL : Represents s L)
    (targets : List ℕ) (first : List (Leaf H)) (rest : List (List (Leaf H)))
    (hv : Valid L ((first ++ rest.flatten).map Prod.fst) targets) :
    ∃ u t s' top, modify s (first ++ rest.flatten) targets = .ok (true, some u, t) ∧
      calls ((first, targets) :: rest.map fun c => (c, [])) s = .ok s' ∧ Same s' t ∧
      Unwinds s' (top ++ st) ∧ top.length = rest.length + 1 ∧ ∀ e, top.getLast? = some e → e.2 = s := by
  obtain ⟨L0, hL0, -, hl⟩ := C16_represents s st h
  obtain rfl := hL.unique hL0
  obtain ⟨u, t, a1, a2, a3⟩ := C56_order s st h L hL _ targets hv
  obtain ⟨s', top, b1, b2, b3, b4, b5⟩ := calls_stack _ s st L h hL (valid_pieces rest L targets first hl hv)
  refine ⟨u, t, s', top, a1, b1, ?_, C21_unwind _ _ b2, by simpa using b3, b5⟩
  have ht := hv.total
  rw [List.length_map, List.length_append] at ht
  rw [List.foldl_cons, leaves_pieces] at b4
  · unfold leavesAfter at b4
    dsimp only at b4
    rw [List.append_assoc, ← List.map_append] at b4
    exact b4.same a3
  · unfold leavesAfter
    dsimp only
    rw [List.length_append, List.length_map, delete_length hv.sorted hv.bound hl]
    omega

/-! ## Concrete cases -/

namespace Examples

attribute [local instance] toyOps

/-- The hypotheses of `C86_forest`: seven leaves, of which three are deleted while four come in three pieces. -/
example : Valid [10, 11, 12, 13, 14, 15, 16] (([(20, false), (21, false)] ++ [[(22, false)], [], [(11, false)]].flatten : List (Leaf ℕ)).map Prod.fst) [1, 4, 5] :=
  ⟨by decide, by decide, by decide, by decide, by decide, by decide⟩

example : (do let s ← calls [((List.range 7).map fun i => (10 + i, false), [])] (Ram.mk 0)
              let (_, _, t) ← Ram.modify s [(20, false), (21, false), (22, false), (11, false)] [1, 4, 5]
              let s' ← calls [([(20, false), (21, false)], [1, 4, 5]), ([(22, false)], []), ([], []), ([(11, false)], [])] s
              let r ← Ram.roots t
              return [r.length == 1, r == (← Ram.roots s')]) = .ok [true, true] := by decide +kernel

/-- C86: the deletions have to come with the first piece: after the additions they give other roots. -/
theorem _root_.Utreexo.C86_deletions_first :
    (do let s ← calls [((List.range 5).map fun i => (10 + i, false), []), ([(20, false)], [0])] (Ram.mk 0)
        let t ← calls [((List.range 5).map fun i => (10 + i, false), []), ([(20, false)], []), ([], [0])] (Ram.mk 0)
        return decide (Ram.roots s = Ram.roots t)) = .ok false := by decide +kernel

end Examples

end Utreexo
