import Verif.Model.File
import Verif.Spec.Disk
import Verif.Proof.RamReopen
import Verif.Proof.Batch

/-! # Restoring a forest from an arbitrary file -/

set_option linter.unusedSectionVars false

namespace Utreexo
open Spec Equiv

namespace File

theorem nodesBelow_succ (n r : ℕ) : nodesBelow n (r + 1) = nodesBelow n r + n / 2 ^ r := by
  unfold nodesBelow
  rw [List.range_succ, List.map_append, List.sum_append]
  simp

theorem nodesBelow_mono {n r q : ℕ} (h : r ≤ q) : nodesBelow n r ≤ nodesBelow n q := by
  induction q, h using Nat.le_induction with
  | base => exact le_rfl
  | succ q _ ih => rw [nodesBelow_succ]; exact le_trans ih (Nat.le_add_right _ _)

theorem nodesBelow_stop {n r q : ℕ} (h : r ≤ q) (h0 : n / 2 ^ r = 0) : nodesBelow n q = nodesBelow n r := by
  induction q, h using Nat.le_induction with
  | base => rfl
  | succ q hq ih =>
    have : n / 2 ^ q = 0 := by
      have := Nat.div_le_div_left (a := n) (Nat.pow_le_pow_right (n := 2) (by omega) hq) (Nat.two_pow_pos r)
      exact Nat.le_zero.1 (h0 ▸ this)
    rw [nodesBelow_succ, ih, this]; rfl

/-! ## Pieces of 32 bytes -/

theorem slices_row (B : List Byte) : ∀ (m off : ℕ), (B.drop off).take (32 * m) =
    (List.range m).flatMap fun x => (B.drop (off + 32 * x)).take 32 := by
  intro m
  induction m with
  | zero => intro off; simp
  | succ m ih =>
    intro off
    rw [show 32 * (m + 1) = 32 * m + 32 by ring, Batch.take_add_drop, ih, List.range_succ, List.flatMap_append]
    simp

theorem slices (B : List Byte) (n : ℕ) : ∀ k : ℕ, B.take (32 * nodesBelow n k) =
    (List.range k).flatMap fun r => (List.range (n / 2 ^ r)).flatMap fun x => (B.drop (32 * (nodesBelow n r + x))).take 32 := by
  intro k
  induction k with
  | zero => simp [nodesBelow]
  | succ k ih =>
    have e := Batch.take_add_drop B 0 (32 * nodesBelow n k) (32 * (n / 2 ^ k))
    rw [List.drop_zero, zero_add, slices_row, ih] at e
    rw [nodesBelow_succ, Nat.mul_add, e, List.range_succ, List.flatMap_append]
    congr 1
    simp [Nat.mul_add]

theorem pieces_row_length (g : ℕ → Hash32) (m : ℕ) : ((List.range m).flatMap fun x => (g x).val).length = 32 * m := by
  induction m with
  | zero => rfl
  | succ m ih =>
    rw [List.range_succ, List.flatMap_append, List.length_append, ih]
    simp [(g m).property]
    ring

theorem pieces_length (g : ℕ → ℕ → Hash32) (n k : ℕ) :
    ((List.range k).flatMap fun r => (List.range (n / 2 ^ r)).flatMap fun x => (g r x).val).length = 32 * nodesBelow n k := by
  induction k with
  | zero => rfl
  | succ k ih =>
    rw [List.range_succ, List.flatMap_append, List.length_append, ih, nodesBelow_succ]
    simp only [List.flatMap_cons, List.flatMap_nil, List.append_nil]
    rw [pieces_row_length]
    ring

theorem piece_row (g : ℕ → Hash32) {m x : ℕ} (h : x < m) (post : List Byte) :
    ((((List.range m).flatMap fun x => (g x).val) ++ post).drop (32 * x)).take 32 = (g x).val := by
  obtain ⟨d, rfl⟩ : ∃ d, m = x + (d + 1) := ⟨m - x - 1, by omega⟩
  rw [List.range_add, List.flatMap_append, List.range_succ_eq_map, List.map_cons, List.flatMap_cons, List.append_assoc,
    List.drop_append_of_le_length (by rw [pieces_row_length]), List.drop_eq_nil_of_le (by rw [pieces_row_length]),
    List.nil_append, List.append_assoc, List.take_append_of_le_length (by rw [(g _).property]),
    List.take_of_length_le (by rw [(g _).property])]
  rfl

theorem piece (g : ℕ → ℕ → Hash32) (n : ℕ) {k r x : ℕ} (hr : r < k) (h : x < n / 2 ^ r) :
    (((List.range k).flatMap fun r => (List.range (n / 2 ^ r)).flatMap fun x => (g r x).val).drop
      (32 * (nodesBelow n r + x))).take 32 = (g r x).val := by
  obtain ⟨d, rfl⟩ : ∃ d, k = r + (d + 1) := ⟨k - r - 1, by omega⟩
  rw [List.range_add, List.flatMap_append, List.range_succ_eq_map, List.map_cons, List.flatMap_cons, Nat.mul_add,
    ← List.drop_drop, List.drop_left' (pieces_length g n r)]
  exact piece_row (g r) h _

/-- The 32 bytes at an offset, filled up with zero bytes. -/
def hashAt (file : List Byte) (off : ℕ) : Hash32 :=
  ⟨((file.drop off).take 32) ++ List.replicate (32 - ((file.drop off).take 32).length) 0#8, by
    rw [List.length_append, List.length_replicate, List.length_take]; omega⟩

theorem hashAt_val {file : List Byte} {off : ℕ} (h : off + 32 ≤ file.length) :
    (hashAt file off).val = (file.drop off).take 32 := by
  unfold hashAt
  simp only
  have : 32 - ((file.drop off).take 32).length = 0 := by simp; omega
  rw [this]; simp

theorem readHash_ok {file : List Byte} {off : ℕ} (h : off + 32 ≤ file.length) :
    Batch.readHash file off = .ok (hashAt file off) := by
  unfold Batch.readHash
  rw [dif_pos h]
  exact congrArg Except.ok (Subtype.ext (hashAt_val h).symm)

theorem restoreRow_ok (file : List Byte) : ∀ (k off : ℕ), off + 32 * k ≤ file.length →
    restoreRow file off k = .ok ((List.range k).map fun x => hashAt file (off + 32 * x), off + 32 * k) := by
  intro k
  induction k with
  | zero => intro off _; rfl
  | succ k ih =>
    intro off h
    rw [restoreRow, readHash_ok (by omega), ok_bind, ih (off + 32) (by omega), ok_bind]
    simp only [pure_ok]
    rw [List.range_succ_eq_map, List.map_cons, List.map_map]
    have e : off + 32 + 32 * k = off + 32 * (k + 1) := by ring
    have e' : (fun x => hashAt file (off + 32 + 32 * x)) = (fun x => hashAt file (off + 32 * x)) ∘ Nat.succ := by
      funext x
      show hashAt file _ = hashAt file _
      congr 1
      rw [Nat.succ_eq_add_one]; ring
    rw [e, e']
    rfl

theorem restoreRow_ub (file : List Byte) : ∀ (k off : ℕ), 0 < k → file.length < off + 32 * k →
    restoreRow file off k = .error .ub := by
  intro k
  induction k with
  | zero => intro off h _; omega
  | succ k ih =>
    intro off _ h
    rw [restoreRow]
    by_cases h1 : off + 32 ≤ file.length
    · rw [readHash_ok h1, ok_bind, ih (off + 32) (by omega) (by omega), error_bind]
    · unfold Batch.readHash
      rw [dif_neg h1, error_bind]

/-- The node stored in the file. -/
def node (file : List Byte) (n r x : ℕ) : Hash32 := hashAt file (8 + 32 * (nodesBelow n r + x))

theorem restoreRows_cases (file : List Byte) {n : ℕ} (hn : n < 2 ^ 64) : ∀ (fuel i : ℕ), Nat.size n < fuel + i →
    i ≤ Nat.size n → 8 + 32 * nodesBelow n i ≤ file.length →
    (diskSize n ≤ file.length → ∃ rows, restoreRows file fuel (8 + 32 * nodesBelow n i) (n / 2 ^ i) = .ok rows ∧
      rows.length + i = Nat.size n + 1 ∧
      ∀ r, r + i ≤ Nat.size n → rows[r]? = some ((List.range (n / 2 ^ (i + r))).map (node file n (i + r)))) ∧
    (file.length < diskSize n → restoreRows file fuel (8 + 32 * nodesBelow n i) (n / 2 ^ i) = .error .ub) := by
  have hsz : Nat.size n ≤ 64 := Nat.size_le.2 hn
  intro fuel
  induction fuel with
  | zero => intro i h1 h2; omega
  | succ fuel ih =>
    intro i h1 h2 hoff
    rw [restoreRows]
    by_cases h0 : n / 2 ^ i = 0
    · rw [if_pos h0]
      have hlt : n < 2 ^ i := by
        by_contra hc
        have := (Nat.le_div_iff_mul_le (k := 2 ^ i) (x := 1) (y := n) (by positivity)).2 (by omega)
        rw [h0] at this; omega
      have := Nat.size_le.2 hlt
      constructor
      · intro _
        refine ⟨[[]], rfl, by simp; omega, ?_⟩
        intro r hr
        have : r = 0 := by omega
        subst this
        rw [add_zero, h0]; rfl
      · intro h
        unfold diskSize at h
        rw [nodesBelow_stop (r := i) (by omega) h0] at h
        omega
    · rw [if_neg h0]
      have hlt : i < Nat.size n := by
        rw [Nat.lt_size]
        have := (Nat.le_div_iff_mul_le (k := 2 ^ i) (x := 1) (y := n) (by positivity)).1 (Nat.pos_of_ne_zero h0)
        omega
      have hsh : (n / 2 ^ i) >>> 1 = n / 2 ^ (i + 1) := by
        rw [Nat.shiftRight_eq_div_pow, Nat.div_div_eq_div_mul, ← pow_add]
      have hnext : 8 + 32 * nodesBelow n i + 32 * (n / 2 ^ i) = 8 + 32 * nodesBelow n (i + 1) := by
        rw [nodesBelow_succ]; ring
      have hmono : nodesBelow n (i + 1) ≤ nodesBelow n 64 := nodesBelow_mono (by omega)
      by_cases hfit : 8 + 32 * nodesBelow n (i + 1) ≤ file.length
      · obtain ⟨k1, k2⟩ := ih (i + 1) (by omega) (by omega) hfit
        rw [restoreRow_ok file _ _ (by rw [hnext]; exact hfit), ok_bind, hnext, hsh]
        simp only
        constructor
        · intro h
          obtain ⟨rows, g1, g2, g3⟩ := k1 h
          rw [g1, ok_bind]
          refine ⟨_, rfl, by simp; omega, ?_⟩
          intro r hr
          cases r with
          | zero =>
            rw [add_zero, List.getElem?_cons_zero]
            congr 1
            apply List.map_congr_left
            intro x _
            unfold node
            congr 1
            ring
          | succ r =>
            rw [List.getElem?_cons_succ, show i + (r + 1) = i + 1 + r by omega]
            exact g3 r (by omega)
        · intro h
          rw [k2 h, error_bind]
      · constructor
        · intro h
          unfold diskSize at h
          omega
        · intro _
          rw [restoreRow_ub file _ _ (Nat.pos_of_ne_zero h0) (by rw [hnext]; omega), error_bind]

end File

namespace Ram
variable {H : Type} [DecidableEq H] [HashOps H]

/-- With repeated hashes the last position wins. -/
theorem restorePosmap_find {f : ℕ → H} {h : H} : ∀ (k pos : ℕ) (m : PosMap H) (p : ℕ),
    PosMap.find (restorePosmap ((List.range' pos k).map f) pos m) h = some p ↔
      (pos ≤ p ∧ p < pos + k ∧ f p = h ∧ ∀ q, p < q → q < pos + k → f q ≠ h) ∨
      (PosMap.find m h = some p ∧ ∀ q, pos ≤ q → q < pos + k → f q ≠ h) := by
  intro k
  induction k with
  | zero =>
    intro pos m p
    rw [List.range'_zero, List.map_nil, restorePosmap]
    constructor
    · intro h; exact .inr ⟨h, fun q h1 h2 => by omega⟩
    · rintro (⟨h1, h2, -⟩ | ⟨h1, -⟩)
      · omega
      · exact h1
  | succ k ih =>
    intro pos m p
    rw [List.range'_succ, List.map_cons, restorePosmap, ih, PosMap.find_insert]
    by_cases hh : h = f pos
    · rw [if_pos hh]
      constructor
      · rintro (⟨h1, h2, h3, h4⟩ | ⟨h1, h2⟩)
        · exact .inl ⟨by omega, by omega, h3, fun q a b => h4 q a (by omega)⟩
        · simp only [Option.some.injEq] at h1
          subst h1
          exact .inl ⟨le_rfl, by omega, hh.symm, fun q a b => h2 q (by omega) (by omega)⟩
      · rintro (⟨h1, h2, h3, h4⟩ | ⟨h1, h2⟩)
        · by_cases hp : p = pos
          · subst hp
            exact .inr ⟨rfl, fun q a b => h4 q (by omega) (by omega)⟩
          · exact .inl ⟨by omega, by omega, h3, fun q a b => h4 q a (by omega)⟩
        · exact absurd hh.symm (h2 pos le_rfl (by omega))
    · rw [if_neg hh]
      constructor
      · rintro (⟨h1, h2, h3, h4⟩ | ⟨h1, h2⟩)
        · exact .inl ⟨by omega, by omega, h3, fun q a b => h4 q a (by omega)⟩
        · refine .inr ⟨h1, fun q a b => ?_⟩
          by_cases hq : q = pos
          · subst hq; exact fun e => hh e.symm
          · exact h2 q (by omega) (by omega)
      · rintro (⟨h1, h2, h3, h4⟩ | ⟨h1, h2⟩)
        · have : p ≠ pos := by rintro rfl; exact hh h3.symm
          exact .inl ⟨by omega, by omega, h3, fun q a b => h4 q a (by omega)⟩
        · exact .inr ⟨h1, fun q a b => h2 q (by omega) (by omega)⟩

end Ram

namespace File
variable [HashOps Hash32]
open Ram

/-- Everything about `Restore`. -/
theorem restore_cases (big : Bool) (file : List Byte) (n : ℕ) (hn : n = beValue (file.take 8)) :
    (file.length < 8 → restore big file = .error .ub) ∧
    (8 ≤ file.length → file.length < diskSize n → restore big file = .error .ub) ∧
    (8 ≤ file.length → diskSize n ≤ file.length → n ≤ 2 ^ 62 → ∃ s, restore big file = .ok s ∧ s.numLeaves = n ∧
      Cells s.ext n (node file n) ∧ s.ext.length = Nat.size n + 1 ∧
      s.posmap = restorePosmap ((List.range n).map (node file n 0)) 0 [] ∧
      s.roots.map RNode.hash = (treeRows n 64).map fun t => some (node file n t (rootIdx n t))) := by
  have hhead : 8 ≤ file.length → memRead file 0 8 = .ok (file.take 8) ∧ (Codec.readBE64 big (file.take 8)).toNat = n ∧
      n < 2 ^ 64 := by
    intro h8
    have hl : (file.take 8).length = 8 := by simp; omega
    have hlt := Codec.beValue_lt (file.take 8)
    rw [hl] at hlt
    refine ⟨?_, ?_, by rw [hn]; exact hlt⟩
    · unfold memRead
      rw [if_pos (by omega), List.drop_zero]
    · rw [Codec.readBE64_eq big _ hl, BitVec.toNat_ofNat, hn, Nat.mod_eq_of_lt hlt]
  refine ⟨?_, ?_, ?_⟩
  · intro h
    unfold restore memRead
    rw [if_neg (by omega), error_bind]
  · intro h8 h
    obtain ⟨e1, e2, e3⟩ := hhead h8
    have := (restoreRows_cases file e3 66 0 (by have := Nat.size_le.2 e3; omega) (by omega) (by simpa [nodesBelow] using h8)).2 h
    simp only [nodesBelow, List.range_zero, List.map_nil, List.sum_nil, Nat.mul_zero, Nat.add_zero, pow_zero, Nat.div_one] at this
    unfold restore
    rw [e1, ok_bind, e2]
    simp only
    rw [this, error_bind]
  · intro h8 h hn62
    obtain ⟨e1, e2, e3⟩ := hhead h8
    obtain ⟨rows, g1, g2, g3⟩ :=
      (restoreRows_cases file e3 66 0 (by have := Nat.size_le.2 e3; omega) (by omega) (by simpa [nodesBelow] using h8)).1 h
    simp only [nodesBelow, List.range_zero, List.map_nil, List.sum_nil, Nat.mul_zero, Nat.add_zero, pow_zero, Nat.div_one,
      zero_add] at g1 g2 g3
    have hrows : St.numRows n < rows.length := by
      have : St.numRows n ≤ Nat.size n := (numRows_le_iff (by omega) _).2 (le_of_lt (Nat.lt_size_self n))
      omega
    have hcells : Cells rows n (node file n) := by
      refine ⟨hrows, ?_⟩
      intro r i hi
      have hr : r ≤ Nat.size n := by
        by_contra hc
        have : n / 2 ^ r = 0 := Nat.div_eq_of_lt (lt_of_lt_of_le (Nat.lt_size_self n)
          (Nat.pow_le_pow_right (by omega) (by omega)))
        omega
      unfold cell
      rw [g3 r hr]
      show ((List.range (n / 2 ^ r)).map (node file n r))[i]? = _
      rw [List.getElem?_map, List.getElem?_range hi]; rfl
    have hhead : rows.headD [] = (List.range n).map (node file n 0) := by
      have := g3 0 (by omega)
      rw [pow_zero, Nat.div_one] at this
      cases rows with
      | nil => simp at this
      | cons a t => simpa using this
    refine ⟨{
        numLeaves := n
        roots := (treeRows n 64).map (fun t =>
          { hash := some (node file n t (rootIdx n t)), numLeaves := n, pos := posOf (St.numRows n) t (rootIdx n t) })
        posmap := restorePosmap ((List.range n).map (node file n 0)) 0 []
        ext := rows }, ?_, rfl, hcells, g2, rfl, ?_⟩
    · unfold restore
      rw [e1, ok_bind, e2]
      simp only
      rw [g1, ok_bind, hhead]
      unfold restoreRoots
      simp only
      rw [rootPositions_eq hn62, ok_bind, treeRows_eq hn62 le_rfl,
        readRoots_ok rfl hn62 hcells n (rootIdx n), ok_bind]
      · rfl
      · intro t ht
        exact root_in (mem_treeRows.1 ht).2
    · rw [List.map_map]; rfl

end File
end Utreexo
