import Verif.Props.Exact
import Verif.Props.Kept
import Verif.Props.Restore

/-!
# C84: what a pollard learns from proofs

An accepted proof makes a pollard know exactly the nodes above its leaves and their siblings, besides those it had. So any number of calls of
`Verify`, in whatever order, with leaves proved together or one by one, with rejected proofs in between, lead to pollards that read
and prove the same and accept the same proofs, if the leaves in the accepted proofs are the same. Without rejected proofs they also
remember the same leaves, and still read and prove the same after the block that deletes the leaves.
-/

set_option linter.unusedSectionVars false

namespace Utreexo
open Spec Equiv Pol

variable {H : Type} [DecidableEq H] [HashOps H]

/-- Calls of `Verify` that are all accepted, with the leaves in them. -/
inductive Accepts (L : List H) : Pollard H → List H → Pollard H → Prop
  | none {p : Pollard H} : Accepts L p [] p
  | next {p p1 p2 : Pollard H} {V : List H} {proof : BatchProof H} {hs : List H} :
      Accepts L p V p1 → verify p1 proof hs = .ok (true, p2) → ¬ Collision p2 L → Accepts L p (V ++ hs) p2

/-! ## One call -/

/-- C84: after an accepted proof the pollard has the nodes above the leaves in it and their siblings, and whatever it had before. The leaves'
positions are recorded, everything else that is recorded stays. -/
theorem C84_learn (F : RamForest H) (st : List (UndoBatch H × RamForest H)) (p : Pollard H) (h : Sync F st p) (L : List H)
    (hL : Ram.Represents F L) (proof : BatchProof H) (hs : List H) (p' : Pollard H) (hv : verify p proof hs = .ok (true, p'))
    (hc : ¬ Collision p' L) :
    (∀ r i, InForest L.length r i →
      ((∃ (a : ℕ) (x : H), L[a]? = some x ∧ x ∈ hs ∧ a / 2 ^ (r + 1) = i / 2) → read p' (at' L r i) = .ok (some (node L r i))) ∧
      ((¬ ∃ (a : ℕ) (x : H), L[a]? = some x ∧ x ∈ hs ∧ a / 2 ^ (r + 1) = i / 2) → read p' (at' L r i) = read p (at' L r i))) ∧
    (∀ (a : ℕ) (x : H), L[a]? = some x → x ∈ hs → PosMap.find p'.posmap x = some a) ∧
    ∀ x, x ∉ hs → PosMap.find p'.posmap x = PosMap.find p.posmap x := by
  obtain ⟨L0, A, hI⟩ := h.inv
  obtain rfl := hL.unique hI.rep
  obtain ⟨L1, hL1, hnd, -⟩ := C16_represents F st hI.run
  obtain rfl := hL.unique hL1
  rcases verify_ok hI.inv hI.len proof hs with ⟨e, -⟩ | ⟨e, h0, rfl⟩ | ⟨e, -⟩ | ⟨s', e, -⟩ | ⟨s', A1, e, -, ha, -, -⟩
  · rw [e] at hv; simp at hv
  · rw [e] at hv
    obtain rfl : p = p' := by simpa using hv
    refine ⟨fun r i _ => ⟨?_, fun _ => rfl⟩, by simp, fun _ _ => rfl⟩
    rintro ⟨a, x, -, hx, -⟩
    simp at hx
  · rw [e] at hv; simp at hv
  · rw [e] at hv; simp at hv
  · rw [e] at hv
    obtain rfl : s' = p' := by simpa using hv
    rw [← coll_iff ha.ph hI.len] at hc
    obtain ⟨hinv, hhs⟩ := ha.sound hI.inv hc
    obtain ⟨hmem, hold, hnew⟩ := Accepted.find hnd ha hhs
    have hin : ∀ {a x}, L[a]? = some x → (x ∈ hs ↔ a ∈ proof.sorted) := by
      intro a x hx
      rw [hmem]
      constructor
      · rintro ⟨t, ht, e⟩
        rw [get_inj hnd hx e]; exact ht
      · intro ha; exact ⟨a, ha, hx⟩
    refine ⟨?_, fun a x hx hm => hnew a ((hin hx).1 hm) x hx, hold⟩
    intro r i hi
    have hi' := inForest_iff.1 hi
    rw [hinv.read_at hI.len hi', hI.inv.read_at hI.len hi']
    have root : ¬ InForest L.length (r + 1) (i / 2) → (A r i).isSome := by
      intro hr
      rw [inForest_iff] at hr
      exact hI.inv.ph.shape.root r i ((rtOf_iff hi').2 hr)
    have keep : (A r i).isSome → (A1 r i).isSome := by
      intro h1
      obtain ⟨q, hq⟩ := Option.isSome_iff_exists.1 h1
      rw [ha.ext r i q hq]; rfl
    constructor
    · rintro ⟨a, x, hx, hm, he⟩
      have h1 : (A1 r i).isSome := by
        by_cases hr : InForest L.length (r + 1) (i / 2)
        · apply ha.pres
          rw [mem_Vn ha.sane]
          left
          rw [mem_Cn ha.sane]
          exact ⟨inForest_iff.1 hr, a, (hin hx).1 hm, he⟩
        · exact keep (root hr)
      obtain ⟨q, hq⟩ := Option.isSome_iff_exists.1 h1
      rw [hq]; rfl
    · intro hno
      cases h1 : A r i with
      | some q => rw [ha.ext r i q h1]
      | none =>
        cases h2 : A1 r i with
        | none => rfl
        | some q =>
          exfalso
          have hm := ha.new r i q h2 h1
          have hr : InForest L.length (r + 1) (i / 2) := by
            by_contra hr
            have := root hr
            rw [h1] at this
            simp at this
          rcases (mem_Vn ha.sane).1 hm with h3 | ⟨-, h3⟩
          · obtain ⟨-, t, ht, he⟩ := (mem_Cn ha.sane).1 h3
            have hlt := ha.sane.lt t ht
            exact hno ⟨t, L[t], List.getElem?_eq_getElem hlt, (hin (List.getElem?_eq_getElem hlt)).2 ht, he⟩
          · rw [rtOf_iff hi'] at h3
            exact h3 (inForest_iff.1 hr)

/-! ## Any number of calls -/

theorem Pol.Verifies.sync {F : RamForest H} {st : List (UndoBatch H × RamForest H)} {p p' : Pollard H} (h : Sync F st p) {L : List H}
    (hL : Ram.Represents F L) {V : H → Prop} (hV : Verifies L p V p') : Sync F st p' := by
  induction hV with
  | none => exact h
  | next _ hv hc ih => exact Sync.verify ih hL hv hc

/-- C84: the same for any number of calls of `Verify`, accepted or rejected: `V` are the leaves in the accepted ones. -/
theorem C84_calls (F : RamForest H) (st : List (UndoBatch H × RamForest H)) (p : Pollard H) (h : Sync F st p) (L : List H)
    (hL : Ram.Represents F L) (V : H → Prop) (p' : Pollard H) (hV : Verifies L p V p') :
    (∀ r i, InForest L.length r i →
      ((∃ (a : ℕ) (x : H), L[a]? = some x ∧ V x ∧ a / 2 ^ (r + 1) = i / 2) → read p' (at' L r i) = .ok (some (node L r i))) ∧
      ((¬ ∃ (a : ℕ) (x : H), L[a]? = some x ∧ V x ∧ a / 2 ^ (r + 1) = i / 2) → read p' (at' L r i) = read p (at' L r i))) ∧
    (∀ (a : ℕ) (x : H), L[a]? = some x → V x → PosMap.find p'.posmap x = some a) ∧
    ∀ x, ¬ V x → PosMap.find p'.posmap x = PosMap.find p.posmap x := by
  classical
  induction hV with
  | none =>
    refine ⟨fun r i _ => ⟨?_, fun _ => rfl⟩, fun _ _ _ hx => hx.elim, fun _ _ => rfl⟩
    rintro ⟨a, x, -, hx, -⟩
    exact hx.elim
  | @next p1 p2 V proof hs b hV hv hc ih =>
    have hS : Sync F st p1 := hV.sync h hL
    obtain ⟨i1, i2, i3⟩ := ih
    cases b with
    | false =>
      obtain ⟨r1, -, r3, -⟩ := C27_rejected F st p1 hS proof hs p2 hv
      have hn : p1.numLeaves = L.length := by
        rw [(C23_agree F st p1 hS).1, hL.count]
      rw [hn] at r3
      simp only [Bool.false_eq_true, false_and, or_false]
      rw [r1]
      refine ⟨fun r i hi => ?_, i2, i3⟩
      have e : read p2 (at' L r i) = read p1 (at' L r i) := r3 r i hi
      rw [e]
      exact i1 r i hi
    | true =>
      obtain ⟨j1, j2, j3⟩ := C84_learn F st p1 hS L hL proof hs p2 hv (hc rfl)
      simp only [true_and]
      refine ⟨fun r i hi => ⟨?_, ?_⟩, ?_, ?_⟩
      · rintro ⟨a, x, hx, hVx, he⟩
        by_cases hh : ∃ (a : ℕ) (x : H), L[a]? = some x ∧ x ∈ hs ∧ a / 2 ^ (r + 1) = i / 2
        · exact (j1 r i hi).1 hh
        · rw [(j1 r i hi).2 hh]
          rcases hVx with hVx | hVx
          · exact (i1 r i hi).1 ⟨a, x, hx, hVx, he⟩
          · exact absurd ⟨a, x, hx, hVx, he⟩ hh
      · intro hno
        rw [(j1 r i hi).2 (fun ⟨a, x, hx, hm, he⟩ => hno ⟨a, x, hx, .inr hm, he⟩),
          (i1 r i hi).2 (fun ⟨a, x, hx, hm, he⟩ => hno ⟨a, x, hx, .inl hm, he⟩)]
      · intro a x hx hVx
        by_cases hm : x ∈ hs
        · exact j2 a x hx hm
        · rw [j3 x hm]
          rcases hVx with hVx | hVx
          · exact i2 a x hx hVx
          · exact absurd hVx hm
      · intro x hno
        rw [j3 x (fun hm => hno (.inr hm)), i3 x (fun hm => hno (.inl hm))]

namespace Learn

/-- Leaves in accepted proofs are leaves of the forest. -/
theorem mem {F : RamForest H} {st : List (UndoBatch H × RamForest H)} {p p' : Pollard H} (h : Sync F st p) {L : List H}
    (hL : Ram.Represents F L) {V : H → Prop} (hV : Verifies L p V p') : ∀ x, V x → x ∈ L := by
  induction hV with
  | none => exact fun _ hx => hx.elim
  | @next p1 p2 V proof hs b hV hv hc ih =>
    rintro x (hx | ⟨rfl, hx⟩)
    · exact ih x hx
    · obtain ⟨L0, A, hI⟩ := (hV.sync h hL).inv
      obtain rfl := hL.unique hI.rep
      rcases verify_ok hI.inv hI.len proof hs with ⟨e, -⟩ | ⟨-, -, rfl⟩ | ⟨e, -⟩ | ⟨s', e, -⟩ | ⟨s', A1, e, -, ha, -, -⟩
      · rw [e] at hv; simp at hv
      · simp at hx
      · rw [e] at hv; simp at hv
      · rw [e] at hv; simp at hv
      · rw [e] at hv
        obtain rfl : s' = p2 := by simpa using hv
        have nc := hc rfl
        rw [← coll_iff ha.ph hI.len] at nc
        obtain ⟨-, hhs⟩ := ha.sound hI.inv nc
        rw [hhs] at hx
        obtain ⟨t, ht, rfl⟩ := List.mem_map.1 hx
        exact List.mem_of_getElem? (leafFn_get.2 ⟨ha.sane.lt t ht, rfl⟩)

/-- Equal reads and records give equal proofs. -/
theorem prove_eq {F : RamForest H} {st : List (UndoBatch H × RamForest H)} {p p' : Pollard H} (h : Sync F st p) (h' : Sync F st p') {L : List H}
    (hL : Ram.Represents F L) (hr : ∀ r i, InForest L.length r i → read p' (at' L r i) = read p (at' L r i))
    (hf : ∀ x, PosMap.find p'.posmap x = PosMap.find p.posmap x) (q : List H) : Acc.prove vt p' q = Acc.prove vt p q := by
  obtain ⟨a, a1, a2, a3⟩ := C60_prove F st p h L hL q
  obtain ⟨b, b1, b2, b3⟩ := C60_prove F st p' h' L hL q
  have hfun : PosMap.find p'.posmap = PosMap.find p.posmap := funext hf
  rw [hfun] at b2 b3
  rw [a1, b1]
  have hs : b.isSome ↔ a.isSome := by
    rw [a2, b2]
    have key : ∀ r k (ts : List ℕ), ProofNode L.length ts r k → read p' (at' L r k) = read p (at' L r k) := fun r k ts hP =>
      hr r k (inForest_iff.2 (ProofNode.inn hP))
    constructor
    · rintro ⟨ts, t1, t2, t3, t4⟩
      exact ⟨ts, t1, t2, t3, fun r k hP => by rw [← key r k ts hP]; exact t4 r k hP⟩
    · rintro ⟨ts, t1, t2, t3, t4⟩
      exact ⟨ts, t1, t2, t3, fun r k hP => by rw [key r k ts hP]; exact t4 r k hP⟩
  cases a with
  | none =>
    cases b with
    | none => rfl
    | some y => simp at hs
  | some x =>
    cases b with
    | none => simp at hs
    | some y =>
      obtain ⟨x1, qx, x2, x3⟩ := a3 x rfl
      obtain ⟨y1, qy, y2, y3⟩ := b3 y rfl
      have ht : x.targets = y.targets := List.map_injective_iff.2 (Option.some_injective _) (x1.symm.trans y1)
      have hq : qx = qy := List.map_injective_iff.2 (Option.some_injective _) (by rw [x2, y2, ht])
      subst hq
      rw [x3] at y3
      exact y3.symm

/-- Equal reads lead to the same proofs being accepted. -/
theorem accept {F : RamForest H} {st : List (UndoBatch H × RamForest H)} {p p' : Pollard H} (h : Sync F st p) (h' : Sync F st p') {L : List H}
    (hL : Ram.Represents F L) (hr : ∀ r i, InForest L.length r i → read p' (at' L r i) = read p (at' L r i)) (proof : BatchProof H)
    (hs : List H) (p1 : Pollard H) (hv : verify p proof hs = .ok (true, p1)) (hc : ¬ Collision p1 L) :
    ∃ p2, verify p' proof hs = .ok (true, p2) ∧ ¬ Collision p2 L := by
  obtain ⟨L0, A, hI⟩ := h.inv
  obtain rfl := hL.unique hI.rep
  obtain ⟨L1, B, hJ⟩ := h'.inv
  obtain rfl := hL.unique hJ.rep
  by_cases ht : proof.targets = []
  · have hlen : hs = [] := by
      by_contra hc
      unfold verify at hv
      rw [ht, if_pos (by simpa using hc)] at hv
      simp at hv
    refine ⟨p', ?_, inv_no_coll hJ.inv hJ.len⟩
    unfold verify at hv ⊢
    rw [hlen, ht] at hv ⊢
    rw [hI.inv.ph.num] at hv
    rw [hJ.inv.ph.num]
    simp only [List.length_nil, ne_eq, not_true_eq_false, if_false] at hv ⊢
    cases hcs : checkSanity proof L.length with
    | error e => rw [hcs] at hv; simp [bind, Except.bind] at hv
    | ok b =>
      rw [hcs] at hv
      cases b with
      | false => simp [bind, Except.bind, pure, Except.pure] at hv
      | true => rfl
  · obtain ⟨hS, nodes, hN⟩ : Sane L.length proof.sorted ∧ ∃ nodes, ProofNodes L.length proof.sorted nodes := by
      have hS : Sane L.length proof.sorted := by
        rcases verify_ok hI.inv hI.len proof hs with ⟨e, -⟩ | ⟨-, h0, -⟩ | ⟨e, -⟩ | ⟨s', e, -⟩ | ⟨s', A1, e, -, ha, -, -⟩
        · rw [e] at hv; simp at hv
        · exact absurd h0 ht
        · rw [e] at hv; simp at hv
        · rw [e] at hv; simp at hv
        · exact ha.sane
      obtain ⟨nodes, comp, -, q2, q3, -⟩ := Ram.proof_nodes hS.n62 hS.sorted hS.lt
      exact ⟨hS, nodes, q2, q3⟩
    have hf := C40_only F st p h L hL proof hs ht nodes hN p1 hv hc
    refine C40_all F st p' h' L hL proof hs nodes hN ⟨hf.count, hf.sorted, hf.leaves, ?_⟩
    have : seen p' L nodes = seen p L nodes := by
      unfold seen
      apply List.map_congr_left
      rintro ⟨r, k⟩ hm
      have hP := (hN.2 r k).1 (List.mem_reverse.1 hm)
      unfold known
      rw [hr r k (inForest_iff.2 (ProofNode.inn hP))]
    rw [this]
    exact hf.reads

end Learn

/-- C84: the order of the calls, which leaves are proved together, repetitions and rejected proofs make no difference: if the leaves in the
accepted proofs are the same then the two pollards read the same at every position of the forest, have the same number of nodes, answer
`Prove` in the same way and accept the same proofs. -/
theorem C84_order (F : RamForest H) (st : List (UndoBatch H × RamForest H)) (p : Pollard H) (h : Sync F st p) (L : List H)
    (hL : Ram.Represents F L) (V W : H → Prop) (p1 p2 : Pollard H) (h1 : Verifies L p V p1) (h2 : Verifies L p W p2) (hVW : ∀ x, V x ↔ W x) :
    (∀ r i, InForest L.length r i → read p2 (at' L r i) = read p1 (at' L r i)) ∧ countNodes p2 = countNodes p1 ∧
    (∀ q, Acc.prove vt p2 q = Acc.prove vt p1 q) ∧
    ∀ proof hs, (∃ p', verify p1 proof hs = .ok (true, p') ∧ ¬ Collision p' L) ↔ ∃ p', verify p2 proof hs = .ok (true, p') ∧ ¬ Collision p' L := by
  classical
  obtain rfl : V = W := funext fun x => propext (hVW x)
  have s1 := h1.sync h hL
  have s2 := h2.sync h hL
  obtain ⟨a1, a2, a3⟩ := C84_calls F st p h L hL V p1 h1
  obtain ⟨b1, b2, b3⟩ := C84_calls F st p h L hL V p2 h2
  have hr : ∀ r i, InForest L.length r i → read p2 (at' L r i) = read p1 (at' L r i) := by
    intro r i hi
    by_cases hc : ∃ (a : ℕ) (x : H), L[a]? = some x ∧ V x ∧ a / 2 ^ (r + 1) = i / 2
    · rw [(a1 r i hi).1 hc, (b1 r i hi).1 hc]
    · rw [(a1 r i hi).2 hc, (b1 r i hi).2 hc]
  have hf : ∀ x, PosMap.find p2.posmap x = PosMap.find p1.posmap x := by
    intro x
    by_cases hx : V x
    · obtain ⟨a, ha⟩ := List.mem_iff_getElem?.1 (Learn.mem h hL h1 x hx)
      rw [a2 a x ha hx, b2 a x ha hx]
    · rw [a3 x hx, b3 x hx]
  refine ⟨hr, ?_, Learn.prove_eq s1 s2 hL hr hf, fun proof hs => ⟨?_, ?_⟩⟩
  · rw [C81_count F st p1 s1 L hL, C81_count F st p2 s2 L hL]
    congr 1
    apply List.map_congr_left
    intro r _
    apply List.countP_congr
    intro i hi
    rw [hr r i (inForest_iff.2 (List.mem_range.1 hi))]
  · rintro ⟨p', hv, hc⟩
    exact Learn.accept s1 s2 hL hr proof hs p' hv hc
  · rintro ⟨p', hv, hc⟩
    exact Learn.accept s2 s1 hL (fun r i hi => (hr r i hi).symm) proof hs p' hv hc

/-! ## Without rejected proofs -/

namespace Learn

theorem verify_verify (m : Memo H) (L V W : List H) : (m.verify L V).verify L W = m.verify L (V ++ W) := by
  unfold Memo.verify
  simp only [Memo.mk.injEq]
  refine ⟨?_, ?_, ?_⟩ <;> funext x
  · simp [Bool.or_assoc]
  · cases hb : beside L x with
    | none => simp [Bool.or_assoc]
    | some g =>
      simp only [Option.any_some, List.mem_append, Bool.decide_or]
      cases m.seen x <;> cases decide (x ∈ V) <;> cases decide (x ∈ W) <;> cases decide (g ∈ V) <;> cases decide (g ∈ W) <;> rfl
  · by_cases h1 : x ∈ W <;> by_cases h2 : x ∈ V <;> simp [h1, h2]

theorem verify_nil (m : Memo H) (L : List H) : m.verify L [] = m := by
  unfold Memo.verify
  cases m
  simp only [Memo.mk.injEq]
  refine ⟨?_, ?_, ?_⟩ <;> funext x
  · simp
  · cases beside L x <;> simp
  · simp

theorem verify_congr (m : Memo H) (L V W : List H) (h : ∀ x, x ∈ V ↔ x ∈ W) : m.verify L V = m.verify L W := by
  unfold Memo.verify
  simp only [h]

theorem accepts_rec {F : RamForest H} {st : List (UndoBatch H × RamForest H)} {p p' : Pollard H} {m : Memo H} {L V : List H}
    (h : Recorded F st p m) (hL : Ram.Represents F L) (hV : Accepts L p V p') : Recorded F st p' (m.verify L V) := by
  induction hV with
  | none => rw [verify_nil]; exact h
  | next _ hv hc ih => rw [← verify_verify]; exact .verify ih hL hv hc

theorem accepts_ver {L V : List H} {p p' : Pollard H} (hV : Accepts L p V p') : Verifies L p (· ∈ V) p' := by
  induction hV with
  | none => simpa using (Verifies.none : Verifies L p (fun _ => False) p)
  | @next p1 p2 V proof hs _ hv hc ih =>
    have := Verifies.next ih hv (fun _ => hc)
    simpa using this

end Learn

/-- C84: if no proof is rejected the pollards also remember the same leaves: those they remembered before and those in the proofs. What they
record about leaves is the memo of C30 after a single accepted proof of all the leaves. -/
theorem C84_memory (F : RamForest H) (st : List (UndoBatch H × RamForest H)) (p : Pollard H) (m : Memo H) (h : Recorded F st p m) (L : List H)
    (hL : Ram.Represents F L) (V W : List H) (p1 p2 : Pollard H) (h1 : Accepts L p V p1) (h2 : Accepts L p W p2) (hVW : ∀ x, x ∈ V ↔ x ∈ W) :
    Recorded F st p1 (m.verify L V) ∧ Recorded F st p2 (m.verify L V) ∧ numCachedLeaves p2 = numCachedLeaves p1 ∧
    numCachedLeaves p1 = (L.filter fun x => m.held x || decide (x ∈ V)).length := by
  have r1 := Learn.accepts_rec h hL h1
  have r2 := Learn.accepts_rec h hL h2
  rw [← Learn.verify_congr m L V W hVW] at r2
  have e1 := (C30_record F st p1 _ r1 L hL).2.2
  have e2 := (C30_record F st p2 _ r2 L hL).2.2
  exact ⟨r1, r2, e2.trans e1.symm, e1⟩

/-- C84: and the difference does not come back later: the block that deletes the leaves in the proofs (and perhaps others that the pollard has
the nodes for) takes both pollards to pollards that read the same everywhere, with the same numbers of nodes and of remembered
leaves, that answer `Prove` in the same way and accept the same proofs. -/
theorem C84_block (F : RamForest H) (st st' : List (UndoBatch H × RamForest H)) (p : Pollard H) (m : Memo H) (h : Recorded F st p m)
    (hT : Tidy F st' p) (L : List H) (hL : Ram.Represents F L) (V W : List H) (p1 p2 : Pollard H) (h1 : Accepts L p V p1)
    (h2 : Accepts L p W p2) (hVW : ∀ x, x ∈ V ↔ x ∈ W) (leaves leaves' : List (Leaf H)) (D : List ℕ)
    (hv : Ram.Valid L (leaves.map Prod.fst) D) (hl : leaves'.map Prod.fst = leaves.map Prod.fst)
    (hD : ∀ t ∈ D, (∃ x, L[t]? = some x ∧ x ∈ V) ∨ Known L p1 t) (hV : ∀ x ∈ V, ∃ t ∈ D, L[t]? = some x) :
    ∃ u F' q1 q2 L', Ram.modify F leaves D = .ok (true, some u, F') ∧ modify p1 leaves' D = .ok (true, q1) ∧ modify p2 leaves' D = .ok (true, q2) ∧
      Ram.Represents F' L' ∧ Modified L (leaves.map Prod.fst) D L' ∧
      (∀ r i, InForest L'.length r i → read q2 (at' L' r i) = read q1 (at' L' r i)) ∧ countNodes q2 = countNodes q1 ∧
      numCachedLeaves q2 = numCachedLeaves q1 ∧ (∀ q, Acc.prove vt q2 q = Acc.prove vt q1 q) ∧
      ∀ proof hs, (∃ p', verify q1 proof hs = .ok (true, p') ∧ ¬ Collision p' L') ↔ ∃ p', verify q2 proof hs = .ok (true, p') ∧ ¬ Collision p' L' := by
  have hs := h.held.sync
  have v1 := Learn.accepts_ver h1
  have v2 := Learn.accepts_ver h2
  obtain ⟨m1, m2, -, -⟩ := C84_memory F st p m h L hL V W p1 p2 h1 h2 hVW
  have hr := (C84_order F st p hs L hL _ _ p1 p2 v1 v2 hVW).1
  have hD2 : ∀ t ∈ D, (∃ x, L[t]? = some x ∧ x ∈ W) ∨ Known L p2 t := by
    intro t ht
    rcases hD t ht with ⟨x, a, b⟩ | hk
    · exact .inl ⟨x, a, (hVW x).1 b⟩
    · refine .inr fun r k hi he => ?_
      rw [hr r k (self_in hi)]
      exact hk r k hi he
  obtain ⟨u, F', q1, a1, a2, a3⟩ := C53_modify_partial F st p p1 hs L hL _ v1 leaves leaves' D hv hl (.inl hD)
  obtain ⟨u2, F2, q2, b1, b2, b3⟩ := C53_modify_partial F st p p2 hs L hL _ v2 leaves leaves' D hv hl (.inl hD2)
  rw [a1] at b1
  obtain ⟨rfl, rfl⟩ : u = u2 ∧ F' = F2 := by simpa using b1
  obtain ⟨L0, A, hI⟩ := hs.inv
  obtain rfl := hL.unique hI.rep
  obtain ⟨L', A', hJ⟩ := a3.inv
  have hM : Modified L (leaves.map Prod.fst) D L' := by
    obtain ⟨u', G, L2, q1, -, q3, q4⟩ := C18_modify F st hI.run L hL leaves D hv
    rw [a1] at q1
    simp only [Except.ok.injEq, Prod.mk.injEq, Option.some.injEq, true_and] at q1
    obtain ⟨rfl, rfl⟩ := q1
    obtain rfl := hJ.rep.unique q3
    exact q4
  have r1 := Recorded.later m1 hs hL v1 hv hl (.inl hD) a1 a2 hJ.rep
  have r2 := Recorded.later m2 hs hL v2 hv hl (.inl hD2) a1 b2 hJ.rep
  have t1 := Tidy.later hT hL v1 hv hl (.inl hD) hV a1 a2
  have t2 := Tidy.later hT hL v2 hv hl (.inl hD2) (fun x hx => hV x ((hVW x).2 hx)) a1 b2
  have s1 := C81_reads _ _ _ _ _ r1 t1 L' hJ.rep
  have s2 := C81_reads _ _ _ _ _ r2 t2 L' hJ.rep
  have hrd : ∀ r i, InForest L'.length r i → read q2 (at' L' r i) = read q1 (at' L' r i) := fun r i hi =>
    (s2.1 r i hi).trans (s1.1 r i hi).symm
  have c1 := C30_record _ _ _ _ r1 L' hJ.rep
  have c2 := C30_record _ _ _ _ r2 L' hJ.rep
  refine ⟨u, F', q1, q2, L', a1, a2, b2, hJ.rep, hM, hrd, s2.2.trans s1.2.symm, c2.2.2.trans c1.2.2.symm, ?_, fun proof hs => ⟨?_, ?_⟩⟩
  · exact Learn.prove_eq a3 b3 hJ.rep hrd (fun x => (c2.1 x).trans (c1.1 x).symm)
  · rintro ⟨p', hv, hc⟩
    exact Learn.accept a3 b3 hJ.rep hrd proof hs p' hv hc
  · rintro ⟨p', hv, hc⟩
    exact Learn.accept b3 a3 hJ.rep (fun r i hi => (hrd r i hi).symm) proof hs p' hv hc

/-! ## Proving what was learned -/

/-- C84: of the leaves in the accepted proofs the pollard proves every selection, with the very proof of the forest, whatever proofs were
rejected before, after or in between. -/
theorem C84_prove (F : RamForest H) (st : List (UndoBatch H × RamForest H)) (p : Pollard H) (h : Sync F st p) (L : List H)
    (hL : Ram.Represents F L) (V : H → Prop) (p' : Pollard H) (hV : Verifies L p V p') (q : List H) (hq : ∀ x ∈ q, V x) :
    Acc.prove vt p' q = Acc.prove Ram.vt F q := by
  have hS := hV.sync h hL
  obtain ⟨L0, A, hI⟩ := hS.inv
  obtain rfl := hL.unique hI.rep
  obtain ⟨c1, c2, -⟩ := C84_calls F st p h L hL V p' hV
  obtain ⟨r, e1, e2, e3⟩ := C22_prove F st hI.run L hL q
  obtain ⟨b, b1, b2, b3⟩ := C60_prove F st p' hS L hL q
  rw [e1, b1]
  have hpos : ∀ (ts : List ℕ) (q : List H), (∀ x ∈ q, V x) → (ts.map fun t => L[t]?) = q.map some →
      q.map (PosMap.find p'.posmap) = ts.map some := by
    intro ts
    induction ts with
    | nil =>
      intro q _ he
      cases q with
      | nil => rfl
      | cons a q => simp at he
    | cons t ts ih =>
      intro q hq he
      cases q with
      | nil => simp at he
      | cons a q =>
        simp only [List.map_cons, List.cons.injEq] at he ⊢
        exact ⟨c2 t a he.1 (hq a (by simp)), ih q (fun x hx => hq x (by simp [hx])) he.2⟩
  cases r with
  | some proof =>
    obtain ⟨t1, -, -, -⟩ := e3 proof rfl
    have ht := hpos _ q hq t1
    have hsome : b.isSome := by
      rw [b2]
      have hget : ∀ t ∈ proof.targets, ∃ x, L[t]? = some x ∧ V x := by
        intro t hm
        have : L[t]? ∈ q.map some := by rw [← t1]; exact List.mem_map_of_mem (f := fun t => L[t]?) hm
        obtain ⟨x, hx, he⟩ := List.mem_map.1 this
        exact ⟨x, he.symm, hq x hx⟩
      refine ⟨proof.targets, ht, ?_, fun t hm => ?_, fun r k hP => ?_⟩
      · have hnd := (e2.1 rfl).1
        rw [← List.nodup_map_iff (Option.some_injective H), ← t1] at hnd
        exact List.Nodup.of_map _ hnd
      · obtain ⟨x, hx, -⟩ := hget t hm
        exact (List.getElem?_eq_some_iff.1 hx).1
      · have hin := inForest_iff.2 (ProofNode.inn hP)
        obtain ⟨j, d, hd, rfl, hf, ⟨a, ha, he⟩, -⟩ := hP
        obtain ⟨x, hx, hVx⟩ := hget a ha
        refine (c1 r _ hin).1 ⟨a, x, hx, hVx, ?_⟩
        rw [pow_succ, ← Nat.div_div_eq_div_mul, he]
        omega
    obtain ⟨proof', rfl⟩ := Option.isSome_iff_exists.1 hsome
    obtain ⟨y1, qy, y2, y3⟩ := b3 proof' rfl
    have hte : proof'.targets = proof.targets := List.map_injective_iff.2 (Option.some_injective _) (y1.symm.trans ht)
    have hqe : qy = q := List.map_injective_iff.2 (Option.some_injective _) (by rw [y2, hte, t1])
    rw [hqe, e1] at y3
    exact y3.symm
  | none =>
    cases b with
    | none => rfl
    | some proof' =>
      obtain ⟨ts, y1, y2, -⟩ := b2.1 rfl
      have hnd : q.Nodup := by
        refine List.Nodup.of_map (PosMap.find p'.posmap) ?_
        rw [y1, List.nodup_map_iff (Option.some_injective ℕ)]
        exact y2
      exact absurd (e2.2 ⟨hnd, fun x hx => Learn.mem h hL hV x (hq x hx)⟩) (by simp)

/-- C84: a pollard that was given proofs of all leaves answers `Prove` like the forest, for every list of hashes, remembers every leaf and has every
node. -/
theorem C84_full (F : RamForest H) (st : List (UndoBatch H × RamForest H)) (p : Pollard H) (m : Memo H) (h : Recorded F st p m) (L : List H)
    (hL : Ram.Represents F L) (V : List H) (p' : Pollard H) (hV : Accepts L p V p') (hall : ∀ x ∈ L, x ∈ V) :
    (∀ q, Acc.prove vt p' q = Acc.prove Ram.vt F q) ∧ numCachedLeaves p' = L.length ∧
    ∀ r i, InForest L.length r i → read p' (at' L r i) = .ok (some (node L r i)) := by
  have hv := Learn.accepts_ver hV
  have hS := h.held.sync
  have r1 := Learn.accepts_rec h hL hV
  obtain ⟨L0, A, hI⟩ := r1.inv
  obtain rfl := hL.unique hI.sync.rep
  obtain ⟨c1, -, -⟩ := C84_calls F st p hS L hL _ p' hv
  refine ⟨fun q => ?_, ?_, fun r i hi => ?_⟩
  · by_cases hq : ∀ x ∈ q, x ∈ L
    · exact C84_prove F st p hS L hL _ p' hv q (fun x hx => hall x (hq x hx))
    · obtain ⟨r, e1, e2, -⟩ := C22_prove F st hI.sync.run L hL q
      obtain ⟨b, b1, b2, -⟩ := C60_prove F st p' (hv.sync hS hL) L hL q
      obtain rfl : r = none := by
        cases r with
        | none => rfl
        | some y => exact absurd (e2.1 rfl).2 hq
      obtain rfl : b = none := by
        cases b with
        | none => rfl
        | some y =>
          obtain ⟨ts, y1, -⟩ := b2.1 rfl
          refine absurd (fun x hx => ?_) hq
          have : PosMap.find p'.posmap x ∈ ts.map some := by rw [← y1]; exact List.mem_map_of_mem hx
          obtain ⟨t, -, ht⟩ := List.mem_map.1 this
          refine hI.dom x ?_
          rw [← hI.pos x, ← ht]
          rfl
      rw [e1, b1]
  · rw [(C84_memory F st p m h L hL V V p' p' hV hV (fun _ => Iff.rfl)).2.2.2, List.filter_eq_self.2]
    intro x hx
    simp [hall x hx]
  · refine (c1 r i hi).1 ?_
    have hlt : i * 2 ^ r < L.length := by
      unfold InForest at hi
      have : 0 < 2 ^ r := Nat.two_pow_pos r
      nlinarith
    refine ⟨i * 2 ^ r, _, List.getElem?_eq_getElem hlt, hall _ (List.getElem_mem hlt), ?_⟩
    rw [pow_succ, ← Nat.div_div_eq_div_mul, Nat.mul_div_cancel _ (Nat.two_pow_pos r)]

/-! ## Concrete cases -/

section Examples

attribute [local instance] toyOps

/-- Prove the lists of leaves one after the other with the proofs of the forest. -/
def learnAll (F : RamForest ℕ) : Pollard ℕ → List (List ℕ) → Res (Pollard ℕ)
  | p, [] => .ok p
  | p, hs :: rest => do
    let some pf ← Acc.prove Ram.vt F hs | .error .exc
    let (true, p') ← Pol.verify p pf hs | .error .exc
    learnAll F p' rest

/-- The positions of a forest of twelve leaves and of one of ten. -/
def nodes12 : List ℕ := List.range 12 ++ [16, 17, 18, 19, 20, 21, 24, 25, 26, 28]
def nodes10 : List ℕ := List.range 10 ++ [16, 17, 18, 19, 20, 24, 25, 28]

/-- What `Read` finds, the number of nodes and of remembered leaves. -/
def learnView (p : Pollard ℕ) (l : List ℕ) : Res (List (Option ℕ) × ℕ × ℕ) := do
  return (← l.mapM fun x => Pol.read p x, countNodes p, numCachedLeaves p)

/-- Two sequences of accepted calls with the leaves 12, 13 and 17 of twelve leaves, in different orders and groups, as in `C84_order`
and `C84_memory`; and the block deleting the three leaves and adding one, as in `C84_block`. -/
example : toyAfter [rememberSome 12 [0, 5]] (fun F p => do
      let p1 ← learnAll F p [[12, 13, 17]]
      let p2 ← learnAll F p [[17], [13], [12, 17], [13]]
      let (b1, q1) ← Pol.modify p1 [(40, true)] [1, 2, 6]
      let (b2, q2) ← Pol.modify p2 [(40, true)] [1, 2, 6]
      return ([(← learnView p1 nodes12) == (← learnView p2 nodes12), b1, b2, (← learnView q1 nodes10) == (← learnView q2 nodes10)],
        [countNodes p, countNodes p1, numCachedLeaves p1, countNodes q1, numCachedLeaves q1])) =
    .ok ([true, true, true, true], [10, 16, 5, 10, 3]) := by decide +kernel

/-- The hypothesis of `C84_full`: a pollard that remembers none of five leaves is given proofs of all of them, at most two at a
time. -/
example : toyAfter [rememberSome 5 []] (fun F p => do
      let p1 ← learnAll F p [[15], [12, 13], [11, 14]]
      return (numCachedLeaves p, countNodes p, numCachedLeaves p1, countNodes p1, (← Acc.prove vt p1 [15, 12]) == (← Acc.prove Ram.vt F [15, 12]),
        (← Acc.prove vt p [15, 12]).isSome)) = .ok (0, 2, 5, 8, true, false) := by decide +kernel

/-- `C84_memory` needs that no proof is rejected: of four leaves, the first of which is remembered, the pollard rejects a
proof of the second and the third that comes with a wrong hash of the third. It reads as before and remembers one leaf more. -/
theorem C84_rejected : toyAfter [rememberSome 4 [0]] (fun _ p => do
      let (b, p') ← Pol.verify p { targets := [1, 2], sorted := [1, 2], hashes := [11, 14] } [12, 99]
      return (b, numCachedLeaves p, numCachedLeaves p', (← (List.range 7).mapM fun x => Pol.read p x) == (← (List.range 7).mapM fun x => Pol.read p' x))) =
    .ok (false, 1, 2, true) := by decide +kernel

end Examples

end Utreexo
