import Verif.Proof.Counters
import Verif.Proof.Total
import Verif.Props.Large
import Verif.Props.Pollard

/-!
# C64: vectors that an `int` cannot count

The sizes and counters of `Model/Counters.lean` are `int`s of 32 bits. Below `2^31` elements they make no difference, so that the
theorems about the functions of the main model speak about the code; from there on they do.
-/

set_option linter.unusedSectionVars false

namespace Utreexo
open Spec Equiv

theorem intBound_eq : intBound = 2 ^ 31 := by decide

section
variable {H N X : Type} [DecidableEq H] [HashOps H]

/-! ## Fewer than `2^31` elements -/

/-- `ProofPositions` of fewer than `2^31` targets. -/
theorem C64_positions (n : ℕ) (targets : List ℕ) (h : targets.length < 2 ^ 31) :
    St.proofPositionsI n targets = St.proofPositions n targets :=
  St.proofPositionsI_eq n targets (by rw [intBound_eq]; exact h)

/-- `Prove` of fewer than `2^31` hashes behaves as in the main model if the proof has fewer than `2^31` hashes, and is
undefined if it has more. -/
theorem C64_prove (vt : VT H N X) (s : Acc H N X) (hashes : List H) (h : hashes.length < 2 ^ 31)
    (pf : BatchProof H) (hp : Acc.prove vt s hashes = .ok (some pf)) :
    Acc.proveI vt s hashes = if pf.hashes.length < 2 ^ 31 then .ok (some pf) else .error .ub := by
  unfold Acc.prove at hp
  unfold Acc.proveI
  cases hl : Acc.lookupTargets s.posmap hashes with
  | none => rw [hl] at hp; cases hp
  | some ts =>
    rw [hl] at hp
    simp only at hp ⊢
    have hlen := Acc.lookupTargets_length hl
    obtain ⟨b, e1, hp⟩ := bind_eq_ok.1 hp
    rw [e1]
    simp only [ok_bind]
    cases b with
    | false => cases hp
    | true =>
      simp only [Bool.not_true, Bool.false_eq_true, if_false] at hp ⊢
      have hs : (St.sortU64 ts).length < 2 ^ 31 := by rw [(Ram.sortU64_perm ts).length_eq, hlen]; exact h
      rw [C64_positions _ _ hs]
      obtain ⟨pp, e2, hp⟩ := bind_eq_ok.1 hp
      rw [e2]
      simp only [ok_bind]
      obtain ⟨o, e3, hp⟩ := bind_eq_ok.1 hp
      cases o with
      | none => cases hp
      | some ph =>
        cases hp
        have hl2 : ph.length = pp.1.length := Acc.readProof_length e3
        by_cases hlt : (BatchProof.mk' ts ph).hashes.length < 2 ^ 31
        · rw [if_pos hlt]
          replace hlt : ph.length < 2 ^ 31 := hlt
          rw [Acc.readProofI_eq vt s pp.1 0 (by rw [intBound_eq]; omega), e3]
          rfl
        · rw [if_neg hlt]
          replace hlt : ¬ ph.length < 2 ^ 31 := hlt
          rw [Acc.readProofI_ub vt s pp.1 0 ph e3 (by decide) (by rw [intBound_eq]; omega)]
          rfl

/-- `Prove` of up to 33 million hashes behaves as in the main model, whatever the accumulator. -/
theorem C64_prove_small (vt : VT H N X) (s : Acc H N X) (hashes : List H) (h : 65 * hashes.length < 2 ^ 31) :
    Acc.proveI vt s hashes = Acc.prove vt s hashes := by
  unfold Acc.proveI Acc.prove
  cases hl : Acc.lookupTargets s.posmap hashes with
  | none => rfl
  | some ts =>
    have hlen := Acc.lookupTargets_length hl
    have hs : (St.sortU64 ts).length = hashes.length := by rw [(Ram.sortU64_perm ts).length_eq, hlen]
    simp only
    rw [C64_positions _ _ (by omega)]
    cases St.checkTargetsSanity s.numLeaves (St.sortU64 ts) with
    | error e => rfl
    | ok b =>
      simp only [ok_bind]
      cases b with
      | false => rfl
      | true =>
        simp only [Bool.not_true, Bool.false_eq_true, if_false]
        cases hpp : St.proofPositions s.numLeaves (St.sortU64 ts) with
        | error e => rfl
        | ok pp =>
          obtain ⟨pf, comp⟩ := pp
          have := St.proofPositions_length hpp
          simp only [ok_bind]
          rw [Acc.readProofI_eq vt s pf 0 (by rw [intBound_eq]; omega)]
          cases Acc.readProof vt s pf with
          | error e => rfl
          | ok o => cases o <;> rfl

end

namespace Ram
variable {H : Type} [DecidableEq H] [HashOps H]

/-- `Modify` of a forest with fewer than `2^31` targets behaves as in the main model, whatever the forest. -/
theorem _root_.Utreexo.C64_modify (s : RamForest H) (leaves : List (Leaf H)) (targets : List ℕ) (h : targets.length < 2 ^ 31) :
    modifyI s leaves targets = Ram.modify s leaves targets := by
  unfold modifyI Ram.modify
  cases Acc.remove vt s targets with
  | error e => rfl
  | ok q =>
    obtain ⟨ok, s1⟩ := q
    simp only [ok_bind]
    have e : buildUndoBatchI s1 leaves.length targets = buildUndoBatch s1 leaves.length targets := by
      unfold buildUndoBatchI buildUndoBatch
      rw [undoHashesI_eq s1 _ targets.length 0 _ (by rw [intBound_eq]; omega)]
    rw [e]
    cases ok with
    | false => rfl
    | true =>
      simp only [Bool.not_true, Bool.false_eq_true, if_false]
      cases buildUndoBatch s1 leaves.length targets with
      | error e => rfl
      | ok o => cases o <;> rfl

/-- With `2^31` targets or more it is undefined where the main model modifies the forest. -/
theorem modifyI_ub (s s' : RamForest H) (leaves : List (Leaf H)) (targets : List ℕ) (u : UndoBatch H)
    (hm : Ram.modify s leaves targets = .ok (true, some u, s')) (h : 2 ^ 31 ≤ targets.length) :
    modifyI s leaves targets = .error .ub := by
  unfold Ram.modify at hm
  unfold modifyI
  obtain ⟨⟨ok, s1⟩, e1, hm⟩ := bind_eq_ok.1 hm
  rw [e1]
  simp only [ok_bind]
  cases ok with
  | false => cases hm
  | true =>
    simp only [Bool.not_true, Bool.false_eq_true, if_false] at hm ⊢
    obtain ⟨o, e2, hm⟩ := bind_eq_ok.1 hm
    unfold buildUndoBatch at e2
    obtain ⟨hs, e3, e2⟩ := bind_eq_ok.1 e2
    unfold buildUndoBatchI
    cases hs with
    | none =>
      cases e2
      cases hm
    | some hs =>
      rw [undoHashesI_ub s1 _ targets.length 0 _ hs e3 (by decide) (by rw [intBound_eq]; omega)]
      rfl

/-- A permitted modification of a forest is undefined exactly if it has `2^31` targets or more. -/
theorem _root_.Utreexo.C64_modify_exact (s : RamForest H) (st : List (UndoBatch H × RamForest H)) (h : Run s st) (L : List H)
    (hL : Represents s L) (leaves : List (Leaf H)) (targets : List ℕ) (hv : Valid L (leaves.map Prod.fst) targets) :
    modifyI s leaves targets = .error .ub ↔ 2 ^ 31 ≤ targets.length := by
  obtain ⟨u, s', L', h1, -⟩ := C18_modify s st h L hL leaves targets hv
  constructor
  · intro he
    by_contra hc
    rw [C64_modify s leaves targets (by omega), h1] at he
    cases he
  · exact modifyI_ub s s' leaves targets u h1

/-- `Undo` of fewer than `2^31` deleted hashes behaves as in the main model, whatever the forest and the batch. -/
theorem _root_.Utreexo.C64_undo (s : RamForest H) (u : UndoBatch H) (h : u.hashes.length < 2 ^ 31) : undoI s u = undo s u := by
  unfold undoI undo
  split
  · rfl
  · simp only
    cases St.undoTransform (sub64 (wrap64 (s.numLeaves + u.positions.length)) u.numAdds) u.positions with
    | error e => rfl
    | ok swaps =>
      simp only [ok_bind]
      cases undoErase s (sub64 s.numLeaves u.numAdds) (s.numLeaves - sub64 s.numLeaves u.numAdds) s.posmap with
      | error e => rfl
      | ok q =>
        obtain ⟨m1, ok1⟩ := q
        simp only [ok_bind]
        cases ok1 with
        | false => rfl
        | true =>
          simp only [Bool.not_true, Bool.false_eq_true, if_false]
          cases vecGet s.ext 0 with
          | error e => rfl
          | ok row0 =>
            simp only [ok_bind]
            rw [undoPlaceI_eq _ u.hashes 0 _ _ (by rw [intBound_eq]; omega)]

/-- `Undo` of `2^31` deleted hashes or more is undefined where the main model takes the batch back. -/
theorem _root_.Utreexo.C64_undo_ub (s s' : RamForest H) (u : UndoBatch H) (hx : s.ext ≠ []) (hu : undo s u = .ok (true, s'))
    (h : 2 ^ 31 ≤ u.hashes.length) : undoI s u = .error .ub := by
  have h0 : ¬ s.ext.length = 0 := fun e => hx (List.length_eq_zero_iff.1 e)
  unfold undo at hu
  unfold undoI
  rw [if_neg h0] at hu ⊢
  simp only at hu ⊢
  obtain ⟨swaps, e1, hu⟩ := bind_eq_ok.1 hu
  rw [e1]
  simp only [ok_bind]
  obtain ⟨⟨m1, ok1⟩, e2, hu⟩ := bind_eq_ok.1 hu
  rw [e2]
  simp only [ok_bind]
  cases ok1 with
  | false => cases hu
  | true =>
    simp only [Bool.not_true, Bool.false_eq_true, if_false] at hu ⊢
    obtain ⟨row0, e3, hu⟩ := bind_eq_ok.1 hu
    rw [e3]
    simp only [ok_bind]
    obtain ⟨⟨row1, m2, ok2⟩, e4, hu⟩ := bind_eq_ok.1 hu
    cases ok2 with
    | false => cases hu
    | true =>
      rw [undoPlaceI_ub _ u.hashes 0 _ _ _ _ e4 (by decide) (by rw [intBound_eq]; omega)]
      rfl

/-- Undoing a permitted modification is undefined exactly if it had `2^31` targets or more. -/
theorem _root_.Utreexo.C64_undo_exact (s : RamForest H) (st : List (UndoBatch H × RamForest H)) (h : Run s st) (L : List H)
    (hL : Represents s L) (leaves : List (Leaf H)) (targets : List ℕ) (hv : Valid L (leaves.map Prod.fst) targets)
    (u : UndoBatch H) (s' : RamForest H) (hm : Ram.modify s leaves targets = .ok (true, some u, s')) :
    undoI s' u = .error .ub ↔ 2 ^ 31 ≤ targets.length := by
  obtain ⟨u', s1, s'', e1, e2, e3, -⟩ := C20_undo s st h L hL leaves targets hv
  rw [e1] at hm
  obtain ⟨rfl, rfl⟩ : u' = u ∧ s1 = s' := by cases hm; exact ⟨rfl, rfl⟩
  have hl := modify_hashes_length e1
  constructor
  · intro he
    by_contra hc
    rw [C64_undo s1 u' (by omega), e2] at he
    cases he
  · intro hge
    refine C64_undo_ub s1 s'' u' ?_ e2 (by omega)
    intro hx
    have hs : s'' = s1 := by
      unfold undo at e2
      rw [if_pos (by rw [hx]; rfl)] at e2
      cases e2
      rfl
    subst hs
    have hpos : 0 < L.length := by
      cases targets with
      | nil => simp only [List.length_nil] at hge; omega
      | cons t ts => have := hv.bound t (by simp); omega
    have hg := e3.leaf 0 L[0] (List.getElem?_eq_getElem hpos)
    unfold getLeaf at hg
    obtain ⟨_, -, hg⟩ := bind_eq_ok.1 hg
    unfold read readIn at hg
    obtain ⟨row, -, hg⟩ := bind_eq_ok.1 hg
    obtain ⟨o, -, hg⟩ := bind_eq_ok.1 hg
    rw [hx] at hg
    obtain ⟨_, hg, -⟩ := bind_eq_ok.1 hg
    unfold cassert at hg
    simp at hg

end Ram

namespace Pol
variable {H : Type} [DecidableEq H] [HashOps H]

theorem createProofTreeI_eq (s : Pollard H) (proof : BatchProof H)
    (h : St.proofPositionsI s.numLeaves proof.sorted = St.proofPositions s.numLeaves proof.sorted) :
    createProofTreeI s proof = createProofTree s proof := by
  unfold createProofTreeI createProofTree
  simp only [h]
  cases St.proofPositions s.numLeaves proof.sorted with
  | error e => rfl
  | ok q =>
    simp only [ok_bind]
    cases cptRows s.numLeaves (St.numRows s.numLeaves + 1)
        { heap := s.ext, roots := s.roots, arena := [], recovery := [], hashes := proof.hashes.reverse,
          proofPos := q.1.reverse, compPos := q.2.reverse } [] with
    | error e => rfl
    | ok o => cases o <;> rfl

/-- `Verify` with fewer than `2^31` targets and hashes behaves as in the main model, whatever the pollard and the proof. -/
theorem _root_.Utreexo.C64_verify (s : Pollard H) (proof : BatchProof H) (hashes : List H) (h : hashes.length < 2 ^ 31)
    (hs : proof.sorted.length < 2 ^ 31) : verifyI s proof hashes = Pol.verify s proof hashes := by
  unfold verifyI Pol.verify
  split
  · rfl
  · have e1 : checkSanityI proof s.numLeaves = checkSanity proof s.numLeaves := by
      unfold checkSanityI checkSanity
      rw [C64_positions _ _ hs]
    have e2 : createProofTreeI s proof = createProofTree s proof := createProofTreeI_eq s proof (C64_positions _ _ hs)
    have e3 : rememberTargetsI 0 hashes proof.sorted s.posmap = rememberTargets hashes proof.sorted s.posmap :=
      rememberTargetsI_eq hashes _ 0 _ (by rw [intBound_eq]; omega)
    simp only [e1, e2, e3]

/-- Where the positions computed are the right ones, accepting a proof of `2^31` targets or more is undefined. -/
theorem _root_.Utreexo.C64_verify_ub (s s' : Pollard H) (proof : BatchProof H) (hashes : List H) (h : 2 ^ 31 ≤ hashes.length)
    (hpos : St.proofPositionsI s.numLeaves proof.sorted = St.proofPositions s.numLeaves proof.sorted)
    (hv : Pol.verify s proof hashes = .ok (true, s')) : verifyI s proof hashes = .error .ub := by
  have e1 : checkSanityI proof s.numLeaves = checkSanity proof s.numLeaves := by
    unfold checkSanityI checkSanity
    rw [hpos]
  have e2 : createProofTreeI s proof = createProofTree s proof := createProofTreeI_eq s proof hpos
  unfold Pol.verify at hv
  unfold verifyI
  rw [e1, e2]
  split
  · rename_i hc; rw [if_pos hc] at hv; cases hv
  · rename_i hc
    rw [if_neg hc] at hv
    obtain ⟨b, a1, hv⟩ := bind_eq_ok.1 hv
    rw [a1]
    simp only [ok_bind]
    cases b with
    | false => cases hv
    | true =>
      simp only [Bool.not_true, Bool.false_eq_true, if_false] at hv ⊢
      have h0 : ¬ proof.targets.length = 0 := by intro e; push Not at hc; omega
      rw [if_neg h0] at hv ⊢
      obtain ⟨⟨createOk, c, tree⟩, a2, hv⟩ := bind_eq_ok.1 hv
      rw [a2]
      simp only [ok_bind]
      cases createOk with
      | false =>
        simp only [Bool.false_eq_true, if_false, pure_ok, ok_bind, Bool.not_false, if_true] at hv
        obtain ⟨hp, -, hv⟩ := bind_eq_ok.1 hv
        cases hv
      | true =>
        simp only [if_true] at hv ⊢
        obtain ⟨⟨ok, t⟩, a3, hv⟩ := bind_eq_ok.1 hv
        rw [a3]
        simp only [ok_bind]
        cases ok with
        | false =>
          simp only [Bool.not_false, if_true] at hv
          obtain ⟨hp, -, hv⟩ := bind_eq_ok.1 hv
          cases hv
        | true =>
          simp only [Bool.not_true, Bool.false_eq_true, if_false]
          rw [rememberTargetsI_ub hashes _ 0 _ (by decide) (by rw [intBound_eq]; omega)]
          rfl

end Pol

/-! ## `2^31` elements and more -/

namespace St

theorem dropRootTarget_cases {n row : ℕ} {l ts : List ℕ} (h : dropRootTarget n row l = .ok ts) :
    ts = l ∨ ts = l.dropLast ∧ hasRoot n row = .ok true := by
  unfold dropRootTarget at h
  obtain ⟨b, e, h⟩ := bind_eq_ok.1 h
  cases b with
  | false => cases h; exact .inl rfl
  | true =>
    simp only [if_true] at h
    cases hl : l.getLast? with
    | none => rw [hl] at h; cases h; exact .inl rfl
    | some t =>
      rw [hl] at h
      obtain ⟨p, -, h⟩ := bind_eq_ok.1 h
      by_cases he : t = p
      · rw [if_pos he] at h; cases h; exact .inr ⟨rfl, e⟩
      · rw [if_neg he] at h; cases h; exact .inl rfl

theorem proofRowsI_total {n : ℕ} (hn : n ≤ 2 ^ 62) : ∀ (k row : ℕ) (l : List ℕ), row + k ≤ numRows n + 1 →
    ∃ r, proofRowsI n k row l = .ok r := by
  intro k
  induction k with
  | zero => intro row l _; exact ⟨_, rfl⟩
  | succ k ih =>
    intro row l h
    obtain ⟨ts, e1⟩ := dropRoot_total hn (row := row) (by omega) l
    obtain ⟨⟨pf, nx⟩, e2⟩ := proofRowI_ok (n := n) (by have := numRows_le_62 hn; omega) ts
    obtain ⟨⟨a, b⟩, e3⟩ := ih (row + 1) nx (by omega)
    exact ⟨_, by rw [proofRowsI, e1, ok_bind, e2, ok_bind]; dsimp only; rw [e3, ok_bind]; rfl⟩

/-- The first target's sibling is among the proof positions, if there are `2^31` targets or more (but not `2^32`) on row 0,
whether it is a target or not. -/
theorem proofPositionsI_head {n a : ℕ} {l : List ℕ} (hn : n ≤ 2 ^ 62)
    (h1 : 2 ^ 31 < l.length + 1 ∨ n % 2 = 0 ∧ 2 ^ 31 ≤ l.length + 1) (h2 : l.length + 1 < 2 ^ 32) :
    ∃ pf comp, proofPositionsI n (a :: l) = .ok (pf, comp) ∧ sibling a ∈ pf := by
  obtain ⟨⟨pf, comp⟩, e⟩ := proofRowsI_total hn (numRows n + 1) 0 (a :: l) (by omega)
  refine ⟨pf, comp, e, ?_⟩
  rw [proofRowsI] at e
  obtain ⟨ts, e1, e⟩ := bind_eq_ok.1 e
  obtain ⟨⟨pf1, nx⟩, e2, e⟩ := bind_eq_ok.1 e
  obtain ⟨⟨pf2, comp2⟩, e3, e⟩ := bind_eq_ok.1 e
  cases e
  refine List.mem_append_left _ ?_
  have hb : intBound = 2 ^ 31 := intBound_eq
  rcases dropRootTarget_cases e1 with rfl | ⟨rfl, hr⟩
  · exact proofRowI_head (by omega) (by omega) e2
  · have hodd : n % 2 = 1 := by
      rw [hasRoot_eq (by omega)] at hr
      have : n.testBit 0 = true := by injection hr
      simpa using this
    cases l with
    | nil => simp only [List.length_nil] at h1; omega
    | cons b l =>
      simp only [List.length_cons] at h1 h2
      rw [List.dropLast_cons_of_ne_nil (by simp)] at e2
      have hd : (b :: l).dropLast.length = l.length := by simp
      exact proofRowI_head (by rw [hd]; omega) (by rw [hd]; omega) e2

end St

/-- With `2^31` targets and more (but fewer than `2^32`), the first two of them siblings, `ProofPositions` asks for a target. -/
theorem C64_positions_wrong (n : ℕ) (hn : n ≤ 2 ^ 62) (a : ℕ) (l : List ℕ)
    (hs : (2 * a :: (2 * a + 1) :: l).Pairwise (· < ·)) (hb : ∀ t ∈ 2 * a :: (2 * a + 1) :: l, t < n)
    (h1 : 2 ^ 31 < l.length + 2 ∨ n % 2 = 0 ∧ 2 ^ 31 ≤ l.length + 2) (h2 : l.length + 2 < 2 ^ 32) :
    ∃ pf comp pf' comp', St.proofPositionsI n (2 * a :: (2 * a + 1) :: l) = .ok (pf, comp) ∧
      St.proofPositions n (2 * a :: (2 * a + 1) :: l) = .ok (pf', comp') ∧ 2 * a + 1 ∈ pf ∧ 2 * a + 1 ∉ pf' := by
  obtain ⟨pf, comp, e1, e2⟩ := St.proofPositionsI_head (n := n) (a := 2 * a) (l := (2 * a + 1) :: l) hn
    (by simpa only [List.length_cons] using h1) (by simpa only [List.length_cons] using h2)
  obtain ⟨pf', comp', e3, -, -, -, e4⟩ := C08_proofPositions n hn _ hs hb
  refine ⟨pf, comp, pf', comp', e1, e3, ?_, ?_⟩
  · have : St.sibling (2 * a) = 2 * a + 1 := by
      unfold St.sibling
      exact xor_one_even _
    rwa [this] at e2
  · intro hm
    obtain ⟨r, j, b, hb2, hf, -, hne, he⟩ := (e4 _).1 hm
    have h0 : 2 * a + 1 < n := hb _ (by simp)
    rcases Nat.eq_zero_or_pos r with rfl | hr
    · rw [posOf_zero] at he
      exact hne (2 * a + 1) (by simp) (by simpa using he)
    · have hR := numRows_le_62 hn
      have h5 : n ≤ 2 ^ St.numRows n := (numRows_le_iff (lt_of_le_of_lt hn (by norm_num)) _).1 le_rfl
      have hr2 : r ≤ St.numRows n + 1 := by
        by_contra hc
        unfold InForest at hf
        have h6 : 2 ^ (St.numRows n + 1) ≤ 2 ^ (r + 1) := Nat.pow_le_pow_right (by omega) (by omega)
        have h7 : 2 ^ (r + 1) ≤ (j + 1) * 2 ^ (r + 1) := Nat.le_mul_of_pos_left _ (by omega)
        have h8 : 2 ^ (St.numRows n + 1) = 2 * 2 ^ St.numRows n := by rw [pow_succ]; ring
        have h9 : 0 < 2 ^ St.numRows n := by positivity
        omega
      have h6 : 2 ^ (St.numRows n + 1 - r) ≤ 2 ^ St.numRows n := Nat.pow_le_pow_right (by omega) (by omega)
      have h8 : 2 ^ (St.numRows n + 1) = 2 * 2 ^ St.numRows n := by rw [pow_succ]; ring
      unfold posOf at he
      rw [rowStart_eq _ _ hr2] at he
      omega

namespace Ram
variable {H : Type} [DecidableEq H] [HashOps H]

/-- The proof of all leaves of a forest needs no hashes. With `2^31` leaves and more (but fewer than `2^32`) `Prove` does not
return that proof. -/
theorem _root_.Utreexo.C64_prove_wrong (s : RamForest H) (st : List (UndoBatch H × RamForest H)) (h : Run s st) (L : List H)
    (hL : Represents s L) (h1 : 2 ^ 31 ≤ L.length) (h2 : L.length < 2 ^ 32) :
    (∃ pf, Acc.prove vt s L = .ok (some pf) ∧ pf.hashes = []) ∧
      ∀ pf, Acc.proveI vt s L = .ok (some pf) → pf.hashes ≠ [] := by
  obtain ⟨L', hL', hnd, hlen⟩ := C16_represents s st h
  obtain rfl := hL.unique hL'
  constructor
  · obtain ⟨r, e1, e2, e3⟩ := C22_prove s st h L hL L
    have hr : r.isSome := e2.2 ⟨hnd, fun x hx => hx⟩
    obtain ⟨pf, rfl⟩ := Option.isSome_iff_exists.1 hr
    refine ⟨pf, e1, ?_⟩
    obtain ⟨k1, -, -, nodes, -, k2, k3⟩ := e3 pf rfl
    have hall : ∀ i, i < L.length → i ∈ pf.targets := by
      intro i hi
      have e : (pf.targets.map (fun t => L[t]?))[i]? = (L.map some)[i]? := by rw [k1]
      rw [List.getElem?_map, List.getElem?_map, List.getElem?_eq_getElem hi] at e
      simp only [Option.map_some] at e
      obtain ⟨t, ht, e⟩ := Option.map_eq_some_iff.1 e
      obtain ⟨ht2, e⟩ := List.getElem?_eq_some_iff.1 e
      have := (List.Nodup.getElem_inj_iff hnd).1 e
      rw [this] at ht
      exact List.mem_of_getElem? ht
    have hn : nodes = [] := by
      rw [List.eq_nil_iff_forall_not_mem]
      rintro ⟨r, k⟩ hm
      obtain ⟨j, b, hb, rfl, hf, -, hne⟩ := (k2 r k).1 hm
      unfold InForest at hf
      have hp : 0 < 2 ^ r := by positivity
      have hbound : (2 * j + (1 - b)) * 2 ^ r < L.length := by
        have a1 : (2 * j + (1 - b)) * 2 ^ r ≤ (2 * j + 1) * 2 ^ r := Nat.mul_le_mul_right _ (by omega)
        have a2 : (2 * j + 1) * 2 ^ r < (j + 1) * 2 ^ (r + 1) := by
          rw [pow_succ]
          nlinarith
        omega
      exact hne _ (hall _ hbound) (Nat.mul_div_cancel _ hp)
    rw [k3, hn]
    rfl
  · intro pf hp he
    unfold Acc.proveI at hp
    cases hl : Acc.lookupTargets s.posmap L with
    | none => rw [hl] at hp; cases hp
    | some ts =>
      rw [hl] at hp
      simp only at hp
      have hlen := Acc.lookupTargets_length hl
      obtain ⟨b, -, hp⟩ := bind_eq_ok.1 hp
      cases b with
      | false => cases hp
      | true =>
        simp only [Bool.not_true, Bool.false_eq_true, if_false] at hp
        obtain ⟨pp, e2, hp⟩ := bind_eq_ok.1 hp
        obtain ⟨o, e3, hp⟩ := bind_eq_ok.1 hp
        cases o with
        | none => cases hp
        | some ph =>
          cases hp
          replace he : ph = [] := he
          have hs : (St.sortU64 ts).length = L.length := by rw [(sortU64_perm ts).length_eq, hlen]
          cases hx : St.sortU64 ts with
          | nil => rw [hx] at hs; simp only [List.length_nil] at hs; omega
          | cons a l =>
            rw [hx] at hs e2
            simp only [List.length_cons] at hs
            have hc := hL.count
            obtain ⟨pf, comp, e4, e5⟩ := St.proofPositionsI_head (n := s.numLeaves) (a := a) (l := l)
              (by omega) (by
                rw [hc]
                rcases Nat.lt_or_ge (2 ^ 31) L.length with hlt | hge
                · left; omega
                · right; constructor <;> omega) (by omega)
            rw [e4] at e2
            cases e2
            have := Acc.readProofI_length e3
            rw [he] at this
            have hpf : pf = [] := List.eq_nil_of_length_eq_zero this.symm
            rw [hpf] at e5
            cases e5

end Ram

/-! ## The statements are not vacuous -/

/-- A forest in which a permitted modification has `2^31` targets: with `int` counters neither the modification nor undoing it
is defined. -/
example [HashOps ℕ] : ∃ s st, Ram.Run (H := ℕ) s st ∧ Ram.modifyI s [] (List.range (2 ^ 31)) = .error .ub ∧
    ∃ u s', Ram.modify s [] (List.range (2 ^ 31)) = .ok (true, some u, s') ∧ Ram.undoI s' u = .error .ub := by
  obtain ⟨s, st, h1, h2⟩ := C63_exists (2 ^ 31) (by norm_num)
  have hv : Ram.Valid (List.range (2 ^ 31)) (([] : List (Leaf ℕ)).map Prod.fst) (List.range (2 ^ 31)) :=
    ⟨List.pairwise_lt_range, fun t ht => by rw [List.length_range]; exact List.mem_range.1 ht, by simp, by simp,
      fun _ => by rw [List.length_range]; norm_num, by rw [List.length_range]; simp⟩
  refine ⟨s, st, h1, (C64_modify_exact s st h1 _ h2 [] _ hv).2 (by rw [List.length_range]), ?_⟩
  obtain ⟨u, s', -, e1, -⟩ := C20_undo s st h1 _ h2 [] _ hv
  exact ⟨u, s', e1, (C64_undo_exact s st h1 _ h2 [] _ hv u s' e1).2 (by rw [List.length_range])⟩

/-- A forest of `2^32` leaves in which the proof of `2^30` of them has `2^31` hashes, which `Prove` cannot count. -/
example [HashOps ℕ] : ∃ s st, Ram.Run (H := ℕ) s st ∧
    Acc.proveI Ram.vt s ((List.range (2 ^ 30)).map fun i => 4 * i) = .error .ub := by
  obtain ⟨s, st, h1, h2⟩ := C63_exists (2 ^ 32) (by norm_num)
  refine ⟨s, st, h1, ?_⟩
  generalize hm : 2 ^ 30 = m
  have hlen : (List.range (2 ^ 32)).length = 4 * m := by rw [List.length_range]; omega
  have hget : ∀ i, i < 4 * m → (List.range (2 ^ 32))[i]? = some i := by
    intro i hi
    exact List.getElem?_range (by omega)
  have hnd : ((List.range m).map fun i => 4 * i).Nodup :=
    List.Nodup.map (fun a b h => Nat.eq_of_mul_eq_mul_left (by omega : 0 < 4) h) List.nodup_range
  obtain ⟨r, e1, e2, e3⟩ := C22_prove s st h1 _ h2 ((List.range m).map fun i => 4 * i)
  have hr : r.isSome := e2.2 ⟨hnd, fun x hx => by
    obtain ⟨i, hi, rfl⟩ := List.mem_map.1 hx
    rw [List.mem_range] at hi ⊢
    omega⟩
  obtain ⟨pf, rfl⟩ := Option.isSome_iff_exists.1 hr
  rw [C64_prove Ram.vt s _ (by rw [List.length_map, List.length_range]; omega) pf e1]
  rw [if_neg]
  obtain ⟨k1, -, -, nodes, -, k2, k3⟩ := e3 pf rfl
  have htl : pf.targets = (List.range m).map fun i => 4 * i := by
    have hl : pf.targets.length = ((List.range m).map fun i => 4 * i).length := by
      have := congrArg List.length k1
      simpa using this
    refine List.ext_getElem hl ?_
    intro i a1 a2
    have e := congrArg (fun l => l[i]?) k1
    simp only [List.getElem?_map, List.getElem?_eq_getElem a1, List.getElem?_eq_getElem a2, Option.map_some] at e
    obtain ⟨b1, b2⟩ := List.getElem?_eq_some_iff.1 (Option.some.inj e)
    rw [List.getElem_range] at b2
    exact b2
  rw [k3, List.length_map]
  have hsub : ((List.range m).map fun i => (0, 4 * i + 1)) ++ ((List.range m).map fun i => (1, 2 * i + 1)) ⊆ nodes := by
    intro x hx
    obtain ⟨r, k⟩ := x
    rw [k2, hlen, htl]
    rcases List.mem_append.1 hx with hx | hx
    · obtain ⟨i, hi, e⟩ := List.mem_map.1 hx
      cases e
      have hi := List.mem_range.1 hi
      refine ⟨2 * i, 0, by omega, by omega, by unfold InForest; omega, ⟨4 * i, List.mem_map.2 ⟨i, List.mem_range.2 hi, rfl⟩, by omega⟩, ?_⟩
      intro a ha
      obtain ⟨i', -, rfl⟩ := List.mem_map.1 ha
      omega
    · obtain ⟨i, hi, e⟩ := List.mem_map.1 hx
      cases e
      have hi := List.mem_range.1 hi
      refine ⟨i, 0, by omega, by omega, by unfold InForest; omega, ⟨4 * i, List.mem_map.2 ⟨i, List.mem_range.2 hi, rfl⟩, by omega⟩, ?_⟩
      intro a ha
      obtain ⟨i', -, rfl⟩ := List.mem_map.1 ha
      omega
  have hnd2 : (((List.range m).map fun i => ((0 : ℕ), 4 * i + 1)) ++ ((List.range m).map fun i => (1, 2 * i + 1))).Nodup := by
    rw [List.nodup_append]
    refine ⟨List.Nodup.map (fun a b h => by simp only [Prod.mk.injEq] at h; omega) List.nodup_range,
      List.Nodup.map (fun a b h => by simp only [Prod.mk.injEq] at h; omega) List.nodup_range, ?_⟩
    intro x hx y hy he
    obtain ⟨i, -, rfl⟩ := List.mem_map.1 hx
    obtain ⟨j, -, rfl⟩ := List.mem_map.1 hy
    simp at he
  have := hnd2.length_le_of_subset hsub
  rw [List.length_append, List.length_map, List.length_map, List.length_range] at this
  omega

/-- The first `2^31` leaves of a larger forest: `ProofPositions` asks for leaf 1. -/
example (n : ℕ) (hn : n ≤ 2 ^ 62) (h : 2 ^ 31 + 2 ≤ n) : ∃ pf comp,
    St.proofPositionsI n (List.range (2 ^ 31 + 2)) = .ok (pf, comp) ∧ 1 ∈ pf := by
  have e : List.range (2 ^ 31 + 2) = 2 * 0 :: (2 * 0 + 1) :: List.range' 2 (2 ^ 31) := by
    rw [List.range_eq_range', List.range'_succ, List.range'_succ]
  have hs : (List.range (2 ^ 31 + 2)).Pairwise (· < ·) := List.pairwise_lt_range
  have hb : ∀ t ∈ List.range (2 ^ 31 + 2), t < n := fun t ht => by have := List.mem_range.1 ht; omega
  rw [e] at hs hb ⊢
  obtain ⟨pf, comp, -, -, h1, -, h2, -⟩ := C64_positions_wrong n hn 0 _ hs hb
    (by rw [List.length_range']; left; norm_num) (by rw [List.length_range']; norm_num)
  exact ⟨pf, comp, h1, h2⟩

theorem cousin_quad {x : ℕ} (h : x % 2 = 0) : St.cousin (2 * x + 1) = 2 * x + 3 := by
  unfold St.cousin
  obtain ⟨y, rfl⟩ : ∃ y, x = 2 * y := ⟨x / 2, by omega⟩
  have e2 : (2 * (2 * y) + 1) ^^^ 2 = 4 * y + 3 := by
    apply Nat.eq_of_testBit_eq
    intro i
    rw [Nat.testBit_xor]
    rcases i with _ | _ | i
    · simp; omega
    · rw [Nat.testBit_succ, Nat.testBit_succ, Nat.testBit_succ]
      have a1 : (2 * (2 * y) + 1) / 2 = 2 * y := by omega
      have a2 : (4 * y + 3) / 2 = 2 * y + 1 := by omega
      rw [a1, a2]
      simp
    · rw [Nat.testBit_succ, Nat.testBit_succ, Nat.testBit_succ, Nat.testBit_succ, Nat.testBit_succ, Nat.testBit_succ]
      have a1 : (2 * (2 * y) + 1) / 2 / 2 = y := by omega
      have a2 : (4 * y + 3) / 2 / 2 = y := by omega
      rw [a1, a2]
      simp
  rw [e2]
  omega

theorem row_far {n a b c d e : ℕ} {l pf nx : List ℕ} (n1 : ¬ St.cousin (St.rightSibling a) = St.rightSibling d)
    (n2 : ¬ St.cousin (St.rightSibling a) = St.rightSibling c) (n3 : ¬ St.rightSibling a = b)
    (n4 : ¬ St.cousin (St.rightSibling a) = St.rightSibling b) (c1 : St.cousin (St.rightSibling b) = St.rightSibling e)
    (hp : St.proofRow n (a :: b :: c :: d :: e :: l) = .ok (pf, nx)) : nx.length ≤ l.length + 3 := by
  rw [St.proofRow, if_neg n1, if_neg n2, if_neg n3, if_neg n4] at hp
  obtain ⟨p0, -, hp⟩ := bind_eq_ok.1 hp
  obtain ⟨⟨pf1, nx1⟩, e1, hp⟩ := bind_eq_ok.1 hp
  cases hp
  rw [St.proofRow, if_pos c1] at e1
  obtain ⟨pa, -, e1⟩ := bind_eq_ok.1 e1
  obtain ⟨pd, -, e1⟩ := bind_eq_ok.1 e1
  obtain ⟨⟨pf2, nx2⟩, e2, e1⟩ := bind_eq_ok.1 e1
  cases e1
  have h2 := (St.proofRow_length _ _ _ _ e2).2
  simp only [List.length_cons]
  omega

theorem rowI_far {n a b c d : ℕ} {l : List ℕ} (n1 : ¬ St.cousin (St.rightSibling a) = St.rightSibling d)
    (n2 : ¬ St.cousin (St.rightSibling a) = St.rightSibling c) (n3 : ¬ St.rightSibling a = b)
    (n4 : ¬ St.cousin (St.rightSibling a) = St.rightSibling b) (h : (b :: c :: d :: l).length < intBound) :
    St.proofRowI n (a :: b :: c :: d :: l) = St.proofRow n (a :: b :: c :: d :: l) := by
  have := St.proofRowI_eq n _ h
  rw [St.proofRowI, St.proofRow, if_neg (fun x => n1 x.2), if_neg (fun x => n2 x.2), if_neg (fun x => n3 x.2),
    if_neg (fun x => n4 x.2), if_neg n1, if_neg n2, if_neg n3, if_neg n4, this]

/-- Up to `2^31` targets for which the positions are the right ones: leaf 0 and the leaves from leaf `2 * x` on. -/
theorem positionsI_far (n x k : ℕ) (hn : n.testBit 0 = false) (hx4 : x % 2 = 0) (hx0 : 4 < x) (hk : k + 5 ≤ intBound) :
    St.proofPositionsI n (0 :: List.range' (2 * x) (k + 4)) = St.proofPositions n (0 :: List.range' (2 * x) (k + 4)) := by
  have hl : List.range' (2 * x) (k + 4) = 2 * x :: (2 * x + 1) :: (2 * x + 2) :: (2 * x + 3) :: List.range' (2 * x + 4) k := by
    rw [List.range'_succ, List.range'_succ, List.range'_succ, List.range'_succ]
  have hroot : ∀ l, St.dropRootTarget n 0 l = .ok l := by
    intro l
    unfold St.dropRootTarget
    rw [hasRoot_eq (by omega)]
    rw [hn]
    rfl
  have r0 : St.rightSibling 0 = 1 := rfl
  have c0 : St.cousin 1 = 3 := rfl
  have hre : ∀ y, St.rightSibling (2 * y) = 2 * y + 1 := by
    intro y
    unfold St.rightSibling
    rw [or_one_cases, if_pos (by omega)]
  have hro : ∀ y, St.rightSibling (2 * y + 1) = 2 * y + 1 := by
    intro y
    unfold St.rightSibling
    rw [or_one_cases, if_neg (by omega)]
  have n1 : ¬ St.cousin (St.rightSibling 0) = St.rightSibling (2 * x + 2) := by
    rw [r0, c0, show 2 * x + 2 = 2 * (x + 1) by ring, hre]; omega
  have n2 : ¬ St.cousin (St.rightSibling 0) = St.rightSibling (2 * x + 1) := by rw [r0, c0, hro]; omega
  have n3 : ¬ St.rightSibling 0 = 2 * x := by rw [r0]; omega
  have n4 : ¬ St.cousin (St.rightSibling 0) = St.rightSibling (2 * x) := by rw [r0, c0, hre]; omega
  have c1 : St.cousin (St.rightSibling (2 * x)) = St.rightSibling (2 * x + 3) := by
    rw [hre, show 2 * x + 3 = 2 * (x + 1) + 1 by ring, hro, cousin_quad hx4]
    ring
  rw [hl]
  have hlen : (List.range' (2 * x + 4) k).length = k := List.length_range'
  generalize List.range' (2 * x + 4) k = l at *
  have hrow := rowI_far (n := n) (a := 0) (l := (2 * x + 3) :: l) n1 n2 n3 n4 (by simp only [List.length_cons]; omega)
  cases hp : St.proofRow n (0 :: 2 * x :: (2 * x + 1) :: (2 * x + 2) :: (2 * x + 3) :: l) with
  | error e =>
    unfold St.proofPositionsI St.proofPositions
    rw [St.proofRowsI, St.proofRows, hroot, ok_bind, ok_bind, hrow, hp, error_bind, error_bind]
  | ok q =>
    obtain ⟨pf, nx⟩ := q
    have h2 := row_far n1 n2 n3 n4 c1 hp
    unfold St.proofPositionsI St.proofPositions
    rw [St.proofRowsI, St.proofRows, hroot, ok_bind, ok_bind, hrow, hp, ok_bind, ok_bind]
    simp only
    rw [St.proofRowsI_eq n _ _ nx (by omega)]

/-- A pollard that would accept a proof of `2^31` targets, if it could count them. -/
example [HashOps ℕ] : ∃ F st p proof hs, Pol.Sync (H := ℕ) F st p ∧ (∃ p', Pol.verify p proof hs = .ok (true, p')) ∧
    Pol.verifyI p proof hs = .error .ub := by
  obtain ⟨F, st, h1, h2⟩ := C63_exists (2 ^ 33) (by norm_num)
  obtain ⟨rs, p, -, -, -, hc, hsync⟩ := C29_restore F st h1
  have hcount := h2.count
  rw [List.length_range] at hcount
  obtain ⟨k, hk⟩ : ∃ k, k + 5 = 2 ^ 31 := ⟨2 ^ 31 - 5, by norm_num⟩
  obtain ⟨x, hx⟩ : ∃ x, 2 * x = 2 ^ 32 := ⟨2 ^ 31, by norm_num⟩
  have hbound : ∀ t ∈ 0 :: List.range' (2 * x) (k + 4), t < 2 ^ 33 := by
    intro t ht
    rcases List.mem_cons.1 ht with rfl | ht
    · norm_num
    · rw [List.mem_range'_1] at ht
      omega
  obtain ⟨proof, p', -, e2, e3, -⟩ := C24_positions F st p hsync _ h2 (0 :: List.range' (2 * x) (k + 4))
    (by
      rw [List.pairwise_cons]
      refine ⟨fun y hy => ?_, List.pairwise_lt_range'⟩
      rw [List.mem_range'_1] at hy
      omega)
    (0 :: List.range' (2 * x) (k + 4)) (by
      refine List.map_congr_left ?_
      intro t ht
      rw [List.getElem?_range (hbound t ht)])
  refine ⟨F, st, p, proof, _, hsync, ⟨p', e3⟩, C64_verify_ub p p' proof _ ?_ ?_ e3⟩
  · rw [List.length_cons, List.length_range']
    omega
  · rw [e2, hc, hcount]
    exact positionsI_far _ x k (by rw [Nat.testBit_zero]; norm_num) (by omega) (by omega) (by rw [intBound_eq]; omega)

end Utreexo
