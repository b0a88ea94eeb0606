import Verif.Proof.Pos
import Verif.Model.Counters

/-!
# Counting with `int`s agrees with counting while the numbers are small
-/

set_option linter.unusedSectionVars false

namespace Utreexo

theorem toInt_eq {k : Nat} (h : k < intBound) : toInt k = k := by
  unfold toInt
  unfold intBound at *
  rw [Nat.mod_eq_of_lt (by omega)]
  omega

theorem incInt_ok {i : Nat} (h : i + 1 < intBound) : incInt i = .ok (i + 1) := if_pos h

theorem incInt_ub {i : Nat} (h : ¬ i + 1 < intBound) : incInt i = .error .ub := if_neg h

namespace St

/-- A row of the proof positions has at most as many entries as the row has targets, and so has the next row. -/
theorem proofRow_length (n : Nat) (l : List Nat) : ∀ pf nx, proofRow n l = .ok (pf, nx) →
    pf.length ≤ l.length ∧ nx.length ≤ l.length := by
  induction l using proofRow.induct with
  | case1 =>
    intro pf nx h
    simp only [proofRow] at h
    cases h
    simp
  | case2 a b c d rest hc ih =>
    intro pf nx h
    simp only [proofRow, if_pos hc] at h
    obtain ⟨pa, -, h⟩ := bind_eq_ok.1 h
    obtain ⟨pd, -, h⟩ := bind_eq_ok.1 h
    obtain ⟨⟨pf', nx'⟩, h1, h⟩ := bind_eq_ok.1 h
    cases h
    have := ih _ _ h1
    simp only [List.length_cons] at *
    omega
  | case3 a b c d rest hc hc2 ih =>
    intro pf nx h
    simp only [proofRow, if_neg hc, if_pos hc2] at h
    obtain ⟨pa, -, h⟩ := bind_eq_ok.1 h
    obtain ⟨pd, -, h⟩ := bind_eq_ok.1 h
    obtain ⟨⟨pf', nx'⟩, h1, h⟩ := bind_eq_ok.1 h
    cases h
    have := ih _ _ h1
    simp only [List.length_cons] at *
    omega
  | case4 a c d rest hc hc2 ih =>
    intro pf nx h
    rw [proofRow, if_neg hc, if_neg hc2, if_pos rfl] at h
    obtain ⟨pa, -, h⟩ := bind_eq_ok.1 h
    obtain ⟨⟨pf', nx'⟩, h1, h⟩ := bind_eq_ok.1 h
    cases h
    have := ih _ _ h1
    simp only [List.length_cons] at *
    omega
  | case5 a b c d rest hc hc2 hc3 hc4 ih =>
    intro pf nx h
    simp only [proofRow, if_neg hc, if_neg hc2, if_neg hc3, if_pos hc4] at h
    obtain ⟨pa, -, h⟩ := bind_eq_ok.1 h
    obtain ⟨pd, -, h⟩ := bind_eq_ok.1 h
    obtain ⟨⟨pf', nx'⟩, h1, h⟩ := bind_eq_ok.1 h
    cases h
    have := ih _ _ h1
    simp only [List.length_cons] at *
    omega
  | case6 a b c d rest hc hc2 hc3 hc4 ih =>
    intro pf nx h
    simp only [proofRow, if_neg hc, if_neg hc2, if_neg hc3, if_neg hc4] at h
    obtain ⟨pa, -, h⟩ := bind_eq_ok.1 h
    obtain ⟨⟨pf', nx'⟩, h1, h⟩ := bind_eq_ok.1 h
    cases h
    have := ih _ _ h1
    simp only [List.length_cons] at *
    omega
  | case7 a b c hc =>
    intro pf nx h
    simp only [proofRow, if_pos hc] at h
    obtain ⟨pa, -, h⟩ := bind_eq_ok.1 h
    obtain ⟨pd, -, h⟩ := bind_eq_ok.1 h
    cases h
    simp
  | case8 a c hc ih =>
    intro pf nx h
    rw [proofRow, if_neg hc, if_pos rfl] at h
    obtain ⟨pa, -, h⟩ := bind_eq_ok.1 h
    obtain ⟨⟨pf', nx'⟩, h1, h⟩ := bind_eq_ok.1 h
    cases h
    have := ih _ _ h1
    simp only [List.length_cons] at *
    omega
  | case9 a b c hc hc2 hc3 ih =>
    intro pf nx h
    rw [proofRow, if_neg hc, if_neg hc2, if_pos hc3] at h
    obtain ⟨pa, -, h⟩ := bind_eq_ok.1 h
    obtain ⟨pd, -, h⟩ := bind_eq_ok.1 h
    obtain ⟨⟨pf', nx'⟩, h1, h⟩ := bind_eq_ok.1 h
    cases h
    have := ih _ _ h1
    simp only [List.length_cons] at *
    omega
  | case10 a b c hc hc2 hc3 ih =>
    intro pf nx h
    rw [proofRow, if_neg hc, if_neg hc2, if_neg hc3] at h
    obtain ⟨pa, -, h⟩ := bind_eq_ok.1 h
    obtain ⟨⟨pf', nx'⟩, h1, h⟩ := bind_eq_ok.1 h
    cases h
    have := ih _ _ h1
    simp only [List.length_cons] at *
    omega
  | case11 a =>
    intro pf nx h
    rw [proofRow, if_pos rfl] at h
    obtain ⟨pa, -, h⟩ := bind_eq_ok.1 h
    cases h
    simp
  | case12 a b hc hc2 =>
    intro pf nx h
    rw [proofRow, if_neg hc, if_pos hc2] at h
    obtain ⟨pa, -, h⟩ := bind_eq_ok.1 h
    obtain ⟨pd, -, h⟩ := bind_eq_ok.1 h
    cases h
    simp
  | case13 a b hc hc2 ih =>
    intro pf nx h
    rw [proofRow, if_neg hc, if_neg hc2] at h
    obtain ⟨pa, -, h⟩ := bind_eq_ok.1 h
    obtain ⟨⟨pf', nx'⟩, h1, h⟩ := bind_eq_ok.1 h
    cases h
    have := ih _ _ h1
    simp only [List.length_cons] at *
    omega
  | case14 a =>
    intro pf nx h
    rw [proofRow] at h
    obtain ⟨pa, -, h⟩ := bind_eq_ok.1 h
    cases h
    simp

theorem proofRowI_eq (n : Nat) (l : List Nat) (h : l.length < intBound) : proofRowI n l = proofRow n l := by
  induction l using proofRow.induct with
  | case2 a b c d rest hc ih =>
    have ht : toInt (rest.length + 4) = ((rest.length + 4 : Nat) : Int) := toInt_eq (by simpa using h)
    simp only [List.length_cons] at h
    rw [proofRowI, proofRow, if_pos hc, if_pos ⟨by rw [ht]; omega, hc⟩, ih (by omega)]
  | case3 a b c d rest hc hc2 ih =>
    have ht : toInt (rest.length + 4) = ((rest.length + 4 : Nat) : Int) := toInt_eq (by simpa using h)
    simp only [List.length_cons] at h
    rw [proofRowI, proofRow, if_neg hc, if_pos hc2, if_neg (fun x => hc x.2), if_pos ⟨by rw [ht]; omega, hc2⟩,
      ih (by simp only [List.length_cons]; omega)]
  | case4 a c d rest hc hc2 ih =>
    have ht : toInt (rest.length + 4) = ((rest.length + 4 : Nat) : Int) := toInt_eq (by simpa using h)
    simp only [List.length_cons] at h
    rw [proofRowI, proofRow, if_neg hc, if_neg hc2, if_pos rfl, if_neg (fun x => hc x.2), if_neg (fun x => hc2 x.2),
      if_pos ⟨by rw [ht]; omega, rfl⟩, ih (by simp only [List.length_cons]; omega)]
  | case5 a b c d rest hc hc2 hc3 hc4 ih =>
    have ht : toInt (rest.length + 4) = ((rest.length + 4 : Nat) : Int) := toInt_eq (by simpa using h)
    simp only [List.length_cons] at h
    rw [proofRowI, proofRow, if_neg hc, if_neg hc2, if_neg hc3, if_pos hc4, if_neg (fun x => hc x.2),
      if_neg (fun x => hc2 x.2), if_neg (fun x => hc3 x.2), if_pos ⟨by rw [ht]; omega, hc4⟩,
      ih (by simp only [List.length_cons]; omega)]
  | case6 a b c d rest hc hc2 hc3 hc4 ih =>
    simp only [List.length_cons] at h
    rw [proofRowI, proofRow, if_neg hc, if_neg hc2, if_neg hc3, if_neg hc4, if_neg (fun x => hc x.2),
      if_neg (fun x => hc2 x.2), if_neg (fun x => hc3 x.2), if_neg (fun x => hc4 x.2),
      ih (by simp only [List.length_cons]; omega)]
  | case1 => simp [proofRowI, proofRow]
  | _ => rw [proofRowI]; all_goals simp

theorem dropRootTarget_length {n row : Nat} {l ts : List Nat} (h : dropRootTarget n row l = .ok ts) :
    ts.length ≤ l.length := by
  unfold dropRootTarget at h
  obtain ⟨b, -, h⟩ := bind_eq_ok.1 h
  cases b with
  | false => cases h; exact le_refl _
  | true =>
    simp only [if_true] at h
    cases hl : l.getLast? with
    | none => rw [hl] at h; cases h; exact le_refl _
    | some t =>
      rw [hl] at h
      obtain ⟨p, -, h⟩ := bind_eq_ok.1 h
      by_cases he : t = p
      · rw [if_pos he] at h; cases h; simp
      · rw [if_neg he] at h; cases h; exact le_refl _

theorem proofRowsI_eq (n : Nat) : ∀ (k row : Nat) (l : List Nat), l.length < intBound →
    proofRowsI n k row l = proofRows n k row l := by
  intro k
  induction k with
  | zero => intro row l _; rfl
  | succ k ih =>
    intro row l h
    rw [proofRowsI, proofRows]
    cases hd : dropRootTarget n row l with
    | error e => rfl
    | ok ts =>
      have h1 := dropRootTarget_length hd
      simp only [ok_bind]
      rw [proofRowI_eq n ts (by omega)]
      cases hp : proofRow n ts with
      | error e => rfl
      | ok q =>
        obtain ⟨pf, nx⟩ := q
        have h2 := (proofRow_length n ts pf nx hp).2
        simp only [ok_bind]
        rw [ih (row + 1) nx (by omega)]

theorem proofPositionsI_eq (n : Nat) (l : List Nat) (h : l.length < intBound) :
    proofPositionsI n l = proofPositions n l := proofRowsI_eq n _ _ l h

theorem proofRows_length (n : Nat) : ∀ (k row : Nat) (l pf comp : List Nat), proofRows n k row l = .ok (pf, comp) →
    pf.length ≤ k * l.length := by
  intro k
  induction k with
  | zero => intro row l pf comp h; cases h; simp
  | succ k ih =>
    intro row l pf comp h
    rw [proofRows] at h
    obtain ⟨ts, h1, h⟩ := bind_eq_ok.1 h
    obtain ⟨⟨pf1, nx⟩, h2, h⟩ := bind_eq_ok.1 h
    obtain ⟨⟨pf2, comp2⟩, h3, h⟩ := bind_eq_ok.1 h
    cases h
    have a1 := dropRootTarget_length h1
    obtain ⟨a2, a3⟩ := proofRow_length n ts _ _ h2
    have a4 := ih _ _ _ _ h3
    have a5 : k * nx.length ≤ k * l.length := Nat.mul_le_mul_left _ (by omega)
    rw [List.length_append, Nat.succ_mul]
    omega

theorem numRows_le (n : Nat) : numRows n ≤ 64 := by
  have key : ∀ (f x r : Nat), countBitsLoop f x r ≤ f + r := by
    intro f
    induction f with
    | zero => intro x r; simp [countBitsLoop]
    | succ f ih =>
      intro x r
      rw [countBitsLoop]
      split
      · omega
      · have := ih (x >>> 1) (r + 1); omega
  unfold numRows
  split
  · omega
  · exact key 64 _ 0

theorem proofPositions_length {n : Nat} {l pf comp : List Nat} (h : proofPositions n l = .ok (pf, comp)) :
    pf.length ≤ 65 * l.length := by
  have h1 := proofRows_length n _ _ _ _ _ h
  have h2 := numRows_le n
  exact h1.trans (Nat.mul_le_mul_right _ (by omega))

/-- A row of `2^31` to `2^32 - 1` targets starts with the sibling of its first target. -/
theorem proofRowI_head {n a : Nat} {l pf nx : List Nat} (h1 : intBound ≤ l.length + 1) (h2 : l.length + 1 < 2 * intBound)
    (h : proofRowI n (a :: l) = .ok (pf, nx)) : sibling a ∈ pf := by
  have hb : intBound = 2147483648 := rfl
  obtain ⟨b, c, d, rest, rfl⟩ : ∃ b c d rest, l = b :: c :: d :: rest := by
    rcases l with _ | ⟨b, _ | ⟨c, _ | ⟨d, rest⟩⟩⟩
    · simp only [List.length_nil] at h1; omega
    · simp only [List.length_cons, List.length_nil] at h1; omega
    · simp only [List.length_cons, List.length_nil] at h1; omega
    · exact ⟨b, c, d, rest, rfl⟩
  simp only [List.length_cons] at h1 h2
  have ht : ¬ toInt (rest.length + 4) > 1 := by
    unfold toInt
    unfold intBound at *
    omega
  rw [proofRowI] at h
  simp only at h
  rw [if_neg (fun x => ht (by omega)), if_neg (fun x => ht (by omega)), if_neg (fun x => ht x.1),
    if_neg (fun x => ht x.1)] at h
  obtain ⟨pa, -, h⟩ := bind_eq_ok.1 h
  obtain ⟨⟨pf', nx'⟩, -, h⟩ := bind_eq_ok.1 h
  cases h
  simp

theorem proofRowI_ok {n : Nat} (hn : numRows n < 64) (l : List Nat) : ∃ r, proofRowI n l = .ok r := by
  have hp : ∀ p, ∃ q, parent n p = .ok q := by
    intro p
    unfold parent shl64
    rw [if_pos (by omega)]
    exact ⟨_, rfl⟩
  have hrow : ∀ l : List Nat, l.length < 4 → ∃ r, proofRow n l = .ok r := by
    have h0 : ∃ r, proofRow n [] = .ok r := ⟨_, rfl⟩
    have h1 : ∀ a, ∃ r, proofRow n [a] = .ok r := by
      intro a
      obtain ⟨p, e⟩ := hp a
      rw [proofRow, e]
      exact ⟨_, rfl⟩
    have h2 : ∀ a b, ∃ r, proofRow n [a, b] = .ok r := by
      intro a b
      obtain ⟨p, e⟩ := hp a
      obtain ⟨q, e'⟩ := hp b
      obtain ⟨⟨x, y⟩, e1⟩ := h1 b
      rw [proofRow, e, e', e1]
      split
      · exact ⟨_, rfl⟩
      · split <;> exact ⟨_, rfl⟩
    have h3 : ∀ a b c, ∃ r, proofRow n [a, b, c] = .ok r := by
      intro a b c
      obtain ⟨p, e⟩ := hp a
      obtain ⟨q, e'⟩ := hp b
      obtain ⟨q', e''⟩ := hp c
      obtain ⟨⟨x, y⟩, e1⟩ := h1 c
      obtain ⟨⟨x', y'⟩, e2⟩ := h2 b c
      rw [proofRow, e, e', e'', e1, e2]
      split
      · exact ⟨_, rfl⟩
      · split
        · exact ⟨_, rfl⟩
        · split <;> exact ⟨_, rfl⟩
    intro l hl
    match l, hl with
    | [], _ => exact h0
    | [a], _ => exact h1 a
    | [a, b], _ => exact h2 a b
    | [a, b, c], _ => exact h3 a b c
  induction hk : l.length using Nat.strong_induction_on generalizing l with
  | _ k ih =>
    match l with
    | [] => exact ⟨_, rfl⟩
    | [a] => rw [proofRowI]; exact hrow _ (by simp); all_goals simp
    | [a, b] => rw [proofRowI]; exact hrow _ (by simp); all_goals simp
    | [a, b, c] => rw [proofRowI]; exact hrow _ (by simp); all_goals simp
    | a :: b :: c :: d :: rest =>
      simp only [List.length_cons] at hk
      obtain ⟨pa, e1⟩ := hp a
      obtain ⟨pb, e2⟩ := hp b
      obtain ⟨pc, e3⟩ := hp c
      obtain ⟨pd, e4⟩ := hp d
      obtain ⟨⟨x1, y1⟩, f1⟩ := ih rest.length (by omega) rest rfl
      obtain ⟨⟨x2, y2⟩, f2⟩ := ih (d :: rest).length (by simp only [List.length_cons]; omega) (d :: rest) rfl
      obtain ⟨⟨x3, y3⟩, f3⟩ := ih (c :: d :: rest).length (by simp only [List.length_cons]; omega) (c :: d :: rest) rfl
      obtain ⟨⟨x4, y4⟩, f4⟩ := ih (b :: c :: d :: rest).length (by simp only [List.length_cons]; omega) (b :: c :: d :: rest) rfl
      rw [proofRowI, e1, e2, e3, e4, f1, f2, f3, f4]
      simp only
      split
      · exact ⟨_, rfl⟩
      · split
        · exact ⟨_, rfl⟩
        · split
          · exact ⟨_, rfl⟩
          · split <;> exact ⟨_, rfl⟩

end St

namespace Acc
variable {H N X : Type} [DecidableEq H] [HashOps H]

theorem readProofI_eq (vt : VT H N X) (s : Acc H N X) : ∀ (ps : List Nat) (i : Nat), i + ps.length < intBound →
    readProofI vt s i ps = readProof vt s ps := by
  intro ps
  induction ps with
  | nil => intro i _; rfl
  | cons p ps ih =>
    intro i h
    simp only [List.length_cons] at h
    rw [readProofI, readProof]
    cases vt.read s p with
    | error e => rfl
    | ok o =>
      simp only [ok_bind]
      cases o with
      | none => rfl
      | some x => simp only [incInt_ok (show i + 1 < intBound by omega), ok_bind, ih (i + 1) (by omega)]

theorem readProofI_ub (vt : VT H N X) (s : Acc H N X) : ∀ (ps : List Nat) (i : Nat) (hs : List H),
    readProof vt s ps = .ok (some hs) → i < intBound → intBound ≤ i + ps.length → readProofI vt s i ps = .error .ub := by
  intro ps
  induction ps with
  | nil => intro i hs _ h1 h2; simp only [List.length_nil] at h2; omega
  | cons p ps ih =>
    intro i hs h h1 h2
    simp only [List.length_cons] at h2
    rw [readProof] at h
    rw [readProofI]
    obtain ⟨o, e1, h⟩ := bind_eq_ok.1 h
    rw [e1]
    simp only [ok_bind]
    cases o with
    | none => cases h
    | some x =>
      obtain ⟨r, e2, h⟩ := bind_eq_ok.1 h
      by_cases hi : i + 1 < intBound
      · simp only [incInt_ok hi, ok_bind]
        cases r with
        | none => cases h
        | some r => rw [ih (i + 1) r e2 hi (by omega)]; rfl
      · rw [incInt_ub hi]; rfl

theorem readProof_length {vt : VT H N X} {s : Acc H N X} : ∀ {ps : List Nat} {hs : List H},
    readProof vt s ps = .ok (some hs) → hs.length = ps.length := by
  intro ps
  induction ps with
  | nil => intro hs h; cases h; rfl
  | cons p ps ih =>
    intro hs h
    rw [readProof] at h
    obtain ⟨o, -, h⟩ := bind_eq_ok.1 h
    cases o with
    | none => cases h
    | some x =>
      obtain ⟨r, e2, h⟩ := bind_eq_ok.1 h
      cases r with
      | none => cases h
      | some r => cases h; simp [ih e2]

theorem readProofI_length {vt : VT H N X} {s : Acc H N X} : ∀ {ps : List Nat} {i : Nat} {hs : List H},
    readProofI vt s i ps = .ok (some hs) → hs.length = ps.length := by
  intro ps
  induction ps with
  | nil => intro i hs h; cases h; rfl
  | cons p ps ih =>
    intro i hs h
    rw [readProofI] at h
    obtain ⟨o, -, h⟩ := bind_eq_ok.1 h
    cases o with
    | none => cases h
    | some x =>
      obtain ⟨j, -, h⟩ := bind_eq_ok.1 h
      obtain ⟨r, e2, h⟩ := bind_eq_ok.1 h
      cases r with
      | none => cases h
      | some r => cases h; simp [ih e2]

theorem lookupTargets_length {m : PosMap H} : ∀ {hs : List H} {ts : List Nat}, lookupTargets m hs = some ts →
    ts.length = hs.length := by
  intro hs
  induction hs with
  | nil => intro ts h; cases h; rfl
  | cons x hs ih =>
    intro ts h
    rw [lookupTargets] at h
    cases hf : PosMap.find m x with
    | none => rw [hf] at h; cases h
    | some p =>
      rw [hf] at h
      cases hl : lookupTargets m hs with
      | none => rw [hl] at h; cases h
      | some l => rw [hl] at h; cases h; simp [ih hl]

end Acc

namespace Ram
variable {H : Type} [DecidableEq H] [HashOps H]

theorem undoHashesI_eq (s : RamForest H) (prev : Nat) : ∀ (k i pos : Nat), i + k < intBound →
    undoHashesI s prev i pos k = undoHashes s prev pos k := by
  intro k
  induction k with
  | zero => intro i pos _; rfl
  | succ k ih =>
    intro i pos h
    rw [undoHashesI, undoHashes]
    cases s.ext with
    | nil => rfl
    | cons row0 rest =>
      simp only
      split
      · rfl
      · cases readIn s prev pos with
        | error e => rfl
        | ok x => simp only [ok_bind, incInt_ok (show i + 1 < intBound by omega), ih (i + 1) (pos + 1) (by omega)]

theorem undoHashesI_ub (s : RamForest H) (prev : Nat) : ∀ (k i pos : Nat) (hs : List H),
    undoHashes s prev pos k = .ok (some hs) → i < intBound → intBound ≤ i + k →
    undoHashesI s prev i pos k = .error .ub := by
  intro k
  induction k with
  | zero => intro i pos hs _ h1 h2; omega
  | succ k ih =>
    intro i pos hs h h1 h2
    rw [undoHashes] at h
    rw [undoHashesI]
    cases hx : s.ext with
    | nil => rw [hx] at h; cases h
    | cons row0 rest =>
      rw [hx] at h
      simp only at h ⊢
      by_cases hp : pos ≥ row0.length
      · rw [if_pos hp] at h; cases h
      · rw [if_neg hp] at h ⊢
        obtain ⟨x, e1, h⟩ := bind_eq_ok.1 h
        obtain ⟨r, e2, h⟩ := bind_eq_ok.1 h
        rw [e1]
        simp only [ok_bind]
        by_cases hi : i + 1 < intBound
        · simp only [incInt_ok hi, ok_bind]
          cases r with
          | none => cases h
          | some r => rw [ih (i + 1) (pos + 1) r e2 hi (by omega)]; rfl
        · rw [incInt_ub hi]; rfl

theorem undoHashes_length {s : RamForest H} {prev : Nat} : ∀ {k pos : Nat} {hs : List H},
    undoHashes s prev pos k = .ok (some hs) → hs.length = k := by
  intro k
  induction k with
  | zero => intro pos hs h; cases h; rfl
  | succ k ih =>
    intro pos hs h
    rw [undoHashes] at h
    cases hx : s.ext with
    | nil => rw [hx] at h; cases h
    | cons row0 rest =>
      rw [hx] at h
      simp only at h
      by_cases hp : pos ≥ row0.length
      · rw [if_pos hp] at h; cases h
      · rw [if_neg hp] at h
        obtain ⟨x, -, h⟩ := bind_eq_ok.1 h
        obtain ⟨r, e2, h⟩ := bind_eq_ok.1 h
        cases r with
        | none => cases h
        | some r => cases h; simp [ih e2]

theorem modify_hashes_length {s s' : RamForest H} {leaves : List (Leaf H)} {targets : List Nat} {u : UndoBatch H}
    (hm : Ram.modify s leaves targets = .ok (true, some u, s')) : u.hashes.length = targets.length := by
  unfold Ram.modify at hm
  obtain ⟨⟨ok, s1⟩, e1, hm⟩ := bind_eq_ok.1 hm
  cases ok with
  | false => cases hm
  | true =>
    simp only [Bool.not_true, Bool.false_eq_true, if_false] at hm
    obtain ⟨o, e2, hm⟩ := bind_eq_ok.1 hm
    unfold buildUndoBatch at e2
    obtain ⟨hs, e3, e2⟩ := bind_eq_ok.1 e2
    cases hs with
    | none => cases e2; cases hm
    | some hs =>
      cases e2
      obtain ⟨s2, -, hm⟩ := bind_eq_ok.1 hm
      cases hm
      exact undoHashes_length e3

theorem undoPlaceI_eq (n0 : Nat) : ∀ (hs : List H) (i : Nat) (row0 : List H) (m : PosMap H), i + hs.length < intBound →
    undoPlaceI n0 hs i row0 m = undoPlace n0 hs i row0 m := by
  intro hs
  induction hs with
  | nil => intro i row0 m _; rfl
  | cons x hs ih =>
    intro i row0 m h
    simp only [List.length_cons] at h
    rw [undoPlaceI, undoPlace]
    split
    · rfl
    · cases PosMap.find m x with
      | some _ => rfl
      | none => simp only [incInt_ok (show i + 1 < intBound by omega), ok_bind]; exact ih _ _ _ (by omega)

theorem undoPlaceI_ub (n0 : Nat) : ∀ (hs : List H) (i : Nat) (row0 row1 : List H) (m m1 : PosMap H),
    undoPlace n0 hs i row0 m = .ok (row1, m1, true) → i < intBound → intBound ≤ i + hs.length →
    undoPlaceI n0 hs i row0 m = .error .ub := by
  intro hs
  induction hs with
  | nil => intro i row0 row1 m m1 _ h1 h2; simp only [List.length_nil] at h2; omega
  | cons x hs ih =>
    intro i row0 row1 m m1 h h1 h2
    simp only [List.length_cons] at h2
    rw [undoPlace] at h
    rw [undoPlaceI]
    by_cases hp : wrap64 (n0 + i) ≥ row0.length
    · rw [if_pos hp] at h; cases h
    · rw [if_neg hp] at h ⊢
      simp only at h ⊢
      cases hf : PosMap.find m x with
      | some _ => rw [hf] at h; cases h
      | none =>
        rw [hf] at h
        simp only at h ⊢
        by_cases hi : i + 1 < intBound
        · simp only [incInt_ok hi, ok_bind]
          exact ih _ _ _ _ _ h hi (by omega)
        · rw [incInt_ub hi]; rfl

end Ram

namespace Pol
variable {H : Type} [DecidableEq H] [HashOps H]

theorem rememberTargetsI_eq : ∀ (hs : List H) (ps : List Nat) (i : Nat) (m : PosMap H), i + hs.length < intBound →
    rememberTargetsI i hs ps m = rememberTargets hs ps m := by
  intro hs
  induction hs with
  | nil => intro ps i m _; rw [rememberTargetsI, rememberTargets]
  | cons x hs ih =>
    intro ps i m h
    simp only [List.length_cons] at h
    cases ps with
    | nil => rw [rememberTargetsI, rememberTargets]
    | cons p ps =>
      rw [rememberTargetsI, rememberTargets, incInt_ok (by omega), ok_bind]
      exact ih _ _ _ (by omega)

theorem rememberTargetsI_ub : ∀ (hs : List H) (ps : List Nat) (i : Nat) (m : PosMap H), i < intBound →
    intBound ≤ i + hs.length → rememberTargetsI i hs ps m = .error .ub := by
  intro hs
  induction hs with
  | nil => intro ps i m h1 h2; simp only [List.length_nil] at h2; omega
  | cons x hs ih =>
    intro ps i m h1 h2
    simp only [List.length_cons] at h2
    cases ps with
    | nil => rw [rememberTargetsI]
    | cons p ps =>
      rw [rememberTargetsI]
      by_cases hi : i + 1 < intBound
      · rw [incInt_ok hi, ok_bind]
        exact ih _ _ _ hi (by omega)
      · rw [incInt_ub hi]; rfl

end Pol
end Utreexo
