import Verif.Proof.Above
import Verif.Props.Fuzz

/-!
# Above `2^62` leaves

C55: exactly when the functions of `ForestState` that take targets answer, and exactly which inputs make the fuzz target `forest_state`
run into undefined behaviour.
-/

set_option linter.unusedSectionVars false

namespace Utreexo
open Spec Equiv

/-- C55: `RootPositions` answers for every number of leaves up to `2^62`, for the even numbers between `2^62` and `2^63`, and for the
numbers above `2^63`, where it finds no root at all. For all other numbers it is undefined behaviour. -/
theorem C55_roots_exact (n : ℕ) (hn : n < 2 ^ 64) :
    (∃ ps, St.rootPositions n = .ok ps) ∧ ¬ (2 ^ 62 < n ∧ n ≤ 2 ^ 63 ∧ (n % 2 = 1 ∨ n = 2 ^ 63)) ∧ (2 ^ 63 < n → St.rootPositions n = .ok []) ∨
      St.rootPositions n = .error .ub ∧ 2 ^ 62 < n ∧ n ≤ 2 ^ 63 ∧ (n % 2 = 1 ∨ n = 2 ^ 63) := by
  by_cases h1 : n ≤ 2 ^ 62
  · obtain ⟨-, ⟨ps, e⟩, -⟩ := C06_forest _ h1
    exact .inl ⟨⟨ps, e⟩, by omega, by omega⟩
  · by_cases h2 : n ≤ 2 ^ 63
    · by_cases ho : n % 2 = 1
      · refine .inr ⟨?_, by omega, h2, .inl ho⟩
        unfold St.rootPositions St.rootPositionsOf
        rw [St.rows_63 (by omega) h2]
        exact St.rootPositionsLoop_ub ho 63 (by omega)
      · by_cases ht : n = 2 ^ 63
        · exact .inr ⟨by rw [ht]; exact St.roots_top, by omega, h2, .inr ht⟩
        · exact .inl ⟨St.roots_even (by omega) (by omega) (by omega), by omega, by omega⟩
    · exact .inl ⟨⟨_, St.roots_64 (by omega) hn⟩, by omega, fun _ => St.roots_64 (by omega) hn⟩

/-- C55: `ProofPositions` answers in three cases: at most `2^62` leaves, no targets and at most `2^63` leaves, or an even number of leaves
below `2^63`. In every other case it is undefined behaviour. -/
theorem C55_proofPositions_exact (n : ℕ) (hn : n < 2 ^ 64) (targets : List ℕ) :
    (∃ r, St.proofPositions n targets = .ok r) ∧ (n ≤ 2 ^ 62 ∨ targets = [] ∧ n ≤ 2 ^ 63 ∨ n % 2 = 0 ∧ n < 2 ^ 63) ∨
      St.proofPositions n targets = .error .ub ∧ ¬ (n ≤ 2 ^ 62 ∨ targets = [] ∧ n ≤ 2 ^ 63 ∨ n % 2 = 0 ∧ n < 2 ^ 63) := by
  by_cases h1 : n ≤ 2 ^ 62
  · exact .inl ⟨(C55_total n h1 targets).1, .inl h1⟩
  · by_cases h2 : n ≤ 2 ^ 63
    · by_cases ht : targets = []
      · exact .inl ⟨⟨_, by rw [ht]; exact St.proofPositions_nil h2⟩, .inr (.inl ⟨ht, h2⟩)⟩
      · by_cases ho : n % 2 = 1
        · refine .inr ⟨St.proofPositions_odd (by omega) h2 ho ht, ?_⟩
          rintro (h | ⟨h, -⟩ | h)
          · omega
          · exact ht h
          · omega
        · by_cases he : n = 2 ^ 63
          · refine .inr ⟨by rw [he]; exact St.proofPositions_top ht, ?_⟩
            rintro (h | ⟨h, -⟩ | h)
            · omega
            · exact ht h
            · omega
          · exact .inl ⟨St.proofPositions_even (by omega) (by omega) (by omega) _, .inr (.inr ⟨by omega, by omega⟩)⟩
    · refine .inr ⟨St.proofPositions_64 (by omega) hn _, ?_⟩
      rintro (h | ⟨-, h⟩ | h) <;> omega

/-- C55: `Transform` and `UndoTransform` answer for at most `2^62` leaves and for no targets; in every other case they are undefined
behaviour. -/
theorem C55_transform_exact (n : ℕ) (hn : n < 2 ^ 64) (targets : List ℕ) :
    ((∃ r, St.transform n targets = .ok r) ∧ (∃ r, St.undoTransform n targets = .ok r) ∧ (n ≤ 2 ^ 62 ∨ targets = [])) ∨
      (St.transform n targets = .error .ub ∧ St.undoTransform n targets = .error .ub ∧ 2 ^ 62 < n ∧ targets ≠ []) := by
  by_cases h1 : n ≤ 2 ^ 62
  · exact .inl ⟨(C55_total n h1 targets).2.1, (C55_total n h1 targets).2.2.1, .inl h1⟩
  · by_cases ht : targets = []
    · subst ht
      refine .inl ⟨⟨_, St.transform_nil n⟩, ⟨[], ?_⟩, .inr rfl⟩
      unfold St.undoTransform
      rw [St.transform_nil, ok_bind]
      rfl
    · have e := St.transform_ub (by omega) hn ht
      refine .inr ⟨e, ?_, by omega, ht⟩
      unfold St.undoTransform
      rw [e, error_bind]

namespace Fuzz

theorem words_length (big : Bool) (k : ℕ) (c : List Byte) : (words big k c).length = k := by
  induction k generalizing c with
  | zero => rfl
  | succ k ih => simp [words, ih]

end Fuzz

/-- The inputs of the fuzz target `forest_state` that name `n` leaves and `k` targets, `len` bytes in all, and are not handled. -/
def StateBad (n k len : ℕ) : Prop :=
  8 ≤ len ∧ 2 ^ 62 < n ∧ ((n ≤ 2 ^ 63 ∧ n % 2 = 1) ∨ n = 2 ^ 63 ∨ (10 + 8 * k ≤ len ∧ (0 < k ∨ 2 ^ 63 < n)))

/-- C55: the fuzz target `forest_state` either ends without a failure or runs into undefined behaviour, and it does the latter exactly for
the following inputs of at least eight bytes, where `n` is the number of leaves they begin with. `n` is above `2^62`; and `n` is odd and at
most `2^63`, or `n` is `2^63`, or the targets are complete and `n` is above `2^63` or there is at least one target. -/
theorem C55_forestState_exact (big : Bool) (data : List Byte) :
    let n := (Codec.hostLoad big 64 (data.take 8)).toNat
    let k := (Codec.hostLoad big 16 ((data.drop 8).take 2)).toNat
    (Fuzz.forestState big data = .error .ub ↔ StateBad n k data.length) ∧
      (Fuzz.forestState big data = .ok () ↔ ¬ StateBad n k data.length) := by
  intro n k
  have hn : n < 2 ^ 64 := (Codec.hostLoad big 64 (data.take 8)).isLt
  suffices h : (Fuzz.forestState big data = .error .ub ∧ StateBad n k data.length) ∨
      (Fuzz.forestState big data = .ok () ∧ ¬ StateBad n k data.length) by
    rcases h with ⟨e, h⟩ | ⟨e, h⟩ <;> simp [e, h]
  unfold StateBad
  by_cases hl : 8 ≤ data.length
  swap
  · refine .inr ⟨?_, by omega⟩
    unfold Fuzz.forestState Fuzz.take
    rw [if_pos (by omega)]
  by_cases h1 : n ≤ 2 ^ 62
  · exact .inr ⟨C55_forestState_partial big data h1, by omega⟩
  have hun : Fuzz.forestState big data = (do
      let _ ← St.rootPositions n
      match Fuzz.take 2 (data.drop 8) with
      | none => .ok ()
      | some (b, data) =>
        let k := (Codec.hostLoad big 16 b).toNat
        match Fuzz.take (8 * k) data with
        | none => .ok ()
        | some (c, _) =>
          let targets := St.sortU64 (Fuzz.words big k c)
          let _ ← St.proofPositions n targets
          let _ ← St.transform n targets
          let _ ← St.checkTargetsSanity n targets
          let _ ← St.undoTransform n targets
          return ()) := by
    unfold Fuzz.forestState
    conv_lhs => unfold Fuzz.take
    rw [if_neg (by omega)]
    rfl
  rcases C55_roots_exact n hn with ⟨⟨ps, e⟩, hb, -⟩ | ⟨e, hb⟩
  swap
  · refine .inl ⟨?_, by omega⟩
    rw [hun, e, error_bind]
  rw [hun, e, ok_bind]
  by_cases h2 : 10 ≤ data.length
  swap
  · refine .inr ⟨?_, by omega⟩
    unfold Fuzz.take
    rw [if_pos (by simp; omega)]
  have e2 : Fuzz.take 2 (data.drop 8) = some ((data.drop 8).take 2, (data.drop 8).drop 2) := by
    unfold Fuzz.take
    rw [if_neg (by simp; omega)]
  rw [e2]
  dsimp only
  by_cases h3 : 10 + 8 * k ≤ data.length
  swap
  · refine .inr ⟨?_, by omega⟩
    have : Fuzz.take (8 * (Codec.hostLoad big 16 ((data.drop 8).take 2)).toNat) ((data.drop 8).drop 2) = none := by
      unfold Fuzz.take
      rw [if_pos]
      simp only [List.length_drop]
      change 8 * k > _
      omega
    rw [this]
  obtain ⟨c, d, e3⟩ : ∃ c d, Fuzz.take (8 * (Codec.hostLoad big 16 ((data.drop 8).take 2)).toNat) ((data.drop 8).drop 2) = some (c, d) := by
    refine ⟨_, _, if_neg ?_⟩
    simp only [List.length_drop]
    change ¬ 8 * k > _
    omega
  rw [e3]
  dsimp only
  have hlen : (St.sortU64 (Fuzz.words big k c)).length = k := by
    rw [(Ram.sortU64_perm _).length_eq, Fuzz.words_length]
  obtain ⟨bs, e4, -⟩ := C07_checkTargetsSanity n (St.sortU64 (Fuzz.words big k c))
  have hnil : St.sortU64 (Fuzz.words big k c) = [] ↔ k = 0 := by rw [← List.length_eq_zero_iff, hlen]
  change (Except.bind _ _ = _ ∧ _) ∨ _
  rcases C55_proofPositions_exact n hn (St.sortU64 (Fuzz.words big k c)) with ⟨⟨r, e5⟩, hp⟩ | ⟨e5, hp⟩
  · rcases C55_transform_exact n hn (St.sortU64 (Fuzz.words big k c)) with ⟨⟨r1, e6⟩, ⟨r2, e7⟩, ht⟩ | ⟨e6, -, -, ht⟩
    · refine .inr ⟨?_, ?_⟩
      · rw [e5, ok_bind, e6, ok_bind, e4, ok_bind, e7, ok_bind]
        rfl
      · rw [hnil] at hp ht
        omega
    · refine .inl ⟨?_, ?_⟩
      · change Except.bind _ _ = _
        change (St.proofPositions n (St.sortU64 (Fuzz.words big k c)) >>= _) = _
        rw [e5, ok_bind, e6, error_bind]
      · rw [ne_eq, hnil] at ht
        exact ⟨hl, by omega, .inr (.inr ⟨h3, .inl (by omega)⟩)⟩
  · refine .inl ⟨?_, ?_⟩
    · change (St.proofPositions n (St.sortU64 (Fuzz.words big k c)) >>= _) = _
      rw [e5, error_bind]
    · rw [hnil] at hp
      omega

/-! ## Examples -/

section Examples

/-- Both outcomes occur on both sides of `2^63`. -/
example : Fuzz.forestState false (stateInput (2 ^ 62 + 2) []) = .ok () ∧ Fuzz.forestState false (stateInput (2 ^ 62 + 2) [7]) = .error .ub ∧
    Fuzz.forestState false (Codec.leBytes 8 (2 ^ 63 + 1)) = .ok () ∧ Fuzz.forestState false (stateInput (2 ^ 63 + 1) []) = .error .ub ∧
    Fuzz.forestState false (Codec.leBytes 8 (2 ^ 63)) = .error .ub := by decide +kernel

/-- With `2^62 + 2` leaves `ProofPositions` answers for targets, `Transform` does not. -/
example : St.proofPositions (2 ^ 62 + 2) [0] ≠ .error .ub ∧ St.transform (2 ^ 62 + 2) [0] = .error .ub := by decide +kernel

end Examples

end Utreexo
