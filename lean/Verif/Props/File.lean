import Verif.Model.File
import Verif.Props.Codec
import Verif.Props.Ram

/-!
# Properties of the forest file: C31, C32
-/

namespace Utreexo
open Spec Ram

namespace File

theorem applyWrites_eq : ∀ (ws : List (List Byte)) (file : List Byte) (off : ℕ), off ≤ file.length →
    applyWrites file off ws = file.take off ++ ws.flatten ++ file.drop (off + ws.flatten.length) := by
  intro ws
  induction ws with
  | nil => intro file off _; simp [applyWrites]
  | cons w ws ih =>
    intro file off h
    have hl : (writeAt file off w).length ≥ off + w.length := by
      unfold writeAt; simp; omega
    rw [applyWrites, ih _ _ hl]
    unfold writeAt
    have e1 : (file.take off ++ w ++ file.drop (off + w.length)).take (off + w.length) = file.take off ++ w := by
      rw [List.take_append_of_le_length (by simp; omega), List.take_of_length_le (by simp)]
    have e2 : (file.take off ++ w ++ file.drop (off + w.length)).drop (off + w.length + ws.flatten.length) =
        file.drop (off + (w :: ws).flatten.length) := by
      rw [List.drop_append, List.drop_eq_nil_of_le (by simp; omega), List.nil_append, List.drop_drop]
      congr 1
      simp
      omega
    rw [e1, e2]
    simp

theorem readHash_append (pre : List Byte) (h : Hash32) (post : List Byte) :
    Batch.readHash (pre ++ (h.val ++ post)) pre.length = .ok h := by
  have hl := h.property
  unfold Batch.readHash
  rw [dif_pos (by simp; omega)]
  congr 1
  apply Subtype.ext
  simp only
  rw [List.drop_append_of_le_length le_rfl, List.drop_length, List.nil_append,
    List.take_append_of_le_length (by omega), List.take_of_length_le (by omega)]

theorem restoreRow_eq : ∀ (row : List Hash32) (pre post : List Byte),
    restoreRow (pre ++ ((row.map fun h => h.val).flatten ++ post)) pre.length row.length =
      .ok (row, pre.length + (row.map fun h => h.val).flatten.length) := by
  intro row
  induction row with
  | nil => intro pre post; rfl
  | cons h row ih =>
    intro pre post
    rw [List.length_cons, restoreRow, List.map_cons, List.flatten_cons, List.append_assoc, readHash_append, ok_bind]
    have := ih (pre ++ h.val) post
    rw [List.append_assoc, List.length_append, h.property] at this
    rw [this, ok_bind]
    simp only [pure_ok, List.length_append, h.property]
    rw [Nat.add_assoc]

theorem rows_ok (data : List (List Hash32)) : ∀ (k i num fuel : ℕ), num < 2147483648 → num < 2 ^ k → k < fuel →
    (∀ j, j < k → ∃ row, data[i + j]? = some row ∧ num / 2 ^ j ≤ row.length) →
    ∃ ws rows, commitRows data i k num = .ok ws ∧ reopenRows data fuel i num = .ok rows ∧
      ∀ pre post, restoreRows (pre ++ (ws.flatten ++ post)) fuel pre.length num = .ok rows := by
  intro k
  induction k with
  | zero =>
    intro i num fuel h1 h2 hf _
    have : num = 0 := by simpa using h2
    subst this
    obtain ⟨f, rfl⟩ : ∃ f, fuel = f + 1 := ⟨fuel - 1, by omega⟩
    exact ⟨[], [[]], rfl, rfl, fun _ _ => rfl⟩
  | succ k ih =>
    intro i num fuel h1 h2 hf hrow
    obtain ⟨f, rfl⟩ : ∃ f, fuel = f + 1 := ⟨fuel - 1, by omega⟩
    obtain ⟨row, g1, g2⟩ := hrow 0 (by omega)
    simp only [add_zero, pow_zero, Nat.div_one] at g1 g2
    have hsh : num >>> 1 = num / 2 := by rw [Nat.shiftRight_eq_div_pow, pow_one]
    obtain ⟨ws, rows, c1, c2, c3⟩ := ih (i + 1) (num / 2) f (by omega) (by rw [pow_succ] at h2; omega) (by omega) (by
      intro j hj
      obtain ⟨row, e1, e2⟩ := hrow (j + 1) (by omega)
      refine ⟨row, by rw [← e1]; congr 1; omega, ?_⟩
      rw [Nat.div_div_eq_div_mul, mul_comm, ← pow_succ]; exact e2)
    by_cases h0 : num = 0
    · subst h0
      refine ⟨ws, [[]], ?_, rfl, fun _ _ => rfl⟩
      rw [commitRows, vecGet_ok g1, ok_bind]
      unfold commitRow
      rw [cassert_true (by simp), ok_bind, hsh, c1]
      rfl
    · refine ⟨(row.take num).map (fun h => h.val) ++ ws, row.take num :: rows, ?_, ?_, ?_⟩
      · rw [commitRows, vecGet_ok g1, ok_bind]
        unfold commitRow
        rw [cassert_true (by simpa using g2), ok_bind, if_pos h1, hsh, c1]
        rfl
      · rw [reopenRows, if_neg h0, vecGet_ok g1, ok_bind, cassert_true (by simpa using g2), ok_bind, hsh, c2]
        rfl
      · intro pre post
        rw [restoreRows, if_neg h0, List.flatten_append, List.append_assoc]
        have hl : (row.take num).length = num := by rw [List.length_take]; omega
        have e := restoreRow_eq (row.take num) pre (ws.flatten ++ post)
        rw [hl] at e
        rw [e, ok_bind]
        have e3 := c3 (pre ++ ((row.take num).map fun h => h.val).flatten) post
        rw [List.append_assoc, List.length_append] at e3
        simp only
        rw [hsh, e3]
        rfl

theorem read_count (big big' : Bool) (n : ℕ) (hn : n < 2 ^ 64) (post : List Byte) :
    ∃ bs, memRead (Codec.writeBE64 big (BitVec.ofNat 64 n) ++ post) 0 8 = .ok bs ∧ (Codec.readBE64 big' bs).toNat = n := by
  have hl := Codec.writeBE64_length big (BitVec.ofNat 64 n)
  unfold memRead
  rw [if_pos (by simp; omega)]
  refine ⟨_, rfl, ?_⟩
  rw [List.drop_zero, List.take_append_of_le_length (by omega), List.take_of_length_le (by omega),
    (C35_roundtrip big big' 0 0 _).2.2.2.2, BitVec.toNat_ofNat, Nat.mod_eq_of_lt hn]

variable [HashOps Hash32]

theorem commitRows_cells (data : List (List Hash32)) (n : ℕ) (c : ℕ → ℕ → Hash32) (hc : Cells data n c) (hn : n < 2147483648) :
    ∀ (k i : ℕ), i + k ≤ data.length → ∃ ws, commitRows data i k (n / 2 ^ i) = .ok ws ∧
      ws.flatten = (List.range' i k).flatMap fun r => (List.range (n / 2 ^ r)).flatMap fun x => (c r x).val := by
  intro k
  induction k with
  | zero => intro i _; exact ⟨[], rfl, rfl⟩
  | succ k ih =>
    intro i hi
    have hsh : (n / 2 ^ i) >>> 1 = n / 2 ^ (i + 1) := by
      rw [Nat.shiftRight_eq_div_pow, Nat.div_div_eq_div_mul, ← pow_add]
    obtain ⟨ws, g1, g2⟩ := ih (i + 1) (by omega)
    obtain ⟨row, k1, k2, k3⟩ : ∃ row, data[i]? = some row ∧ n / 2 ^ i ≤ row.length ∧
        ∀ x, x < n / 2 ^ i → row[x]? = some (c i x) := by
      by_cases h0 : n / 2 ^ i = 0
      · exact ⟨data[i], List.getElem?_eq_getElem (by omega), by omega, fun x hx => by omega⟩
      · exact cells_row hc h0
    have hlt : n / 2 ^ i < 2147483648 := lt_of_le_of_lt (Nat.div_le_self _ _) hn
    refine ⟨(row.take (n / 2 ^ i)).map (fun h => h.val) ++ ws, ?_, ?_⟩
    · rw [commitRows, vecGet_ok k1, ok_bind]
      unfold commitRow
      rw [cassert_true (by simpa using k2), ok_bind, if_pos hlt, hsh, g1]
      rfl
    · rw [List.flatten_append, g2, List.range'_succ, List.flatMap_cons]
      congr 1
      rw [List.flatMap_def]
      congr 1
      apply List.ext_getElem?
      intro x
      rw [List.getElem?_map, List.getElem?_map, List.getElem?_take]
      by_cases hx : x < n / 2 ^ i
      · rw [if_pos hx, k3 x hx, List.getElem?_range hx]; rfl
      · rw [if_neg hx, List.getElem?_eq_none (by simpa using hx)]; rfl

end File

open File

section Props
variable [HashOps Hash32]

/-- The bytes describing a forest with leaves `L`: the leaf count in eight bytes, most significant
first, then row by row the Merkle hashes of all nodes below perfect trees. -/
structure ForestFile (L : List Hash32) (bytes : List Byte) : Prop where
  header : 8 ≤ bytes.length
  count : beValue (bytes.take 8) = L.length
  nodes : bytes.drop 8 = (List.range 64).flatMap fun r =>
    (List.range (L.length / 2 ^ r)).flatMap fun x => (merkle HashOps.ph (leafFn HashOps.zero L) r x).val

/-- Everything about `Commit`. -/
theorem commit_ok {s : RamForest Hash32} {n : ℕ} {f : ℕ → Hash32} (h : Inv s n f) (hn : n < 2147483648) (big : Bool) :
    ∃ ws, commitWrites big s = .ok ws ∧ ForestFile ((List.range n).map f) ws.flatten ∧
      ∀ big' post, restore big' (ws.flatten ++ post) = reopen s := by
  have hR := numRows_le_62 (n := n) (by omega)
  have hle := le_two_pow_numRows (n := n) (by omega)
  have hpos := Nat.two_pow_pos (St.numRows n)
  have hrow : ∀ j, j < St.numRows n + 1 → ∃ row, s.ext[0 + j]? = some row ∧ n / 2 ^ j ≤ row.length := by
    intro j hj
    rw [zero_add]
    by_cases h0 : n / 2 ^ j = 0
    · have := h.cells.rows
      exact ⟨s.ext[j], List.getElem?_eq_getElem (by omega), by omega⟩
    · obtain ⟨row, g1, g2, -⟩ := cells_row h.cells h0
      exact ⟨row, g1, g2⟩
  obtain ⟨ws, rows, c1, c2, c3⟩ := rows_ok s.ext (St.numRows n + 1) 0 n 66 hn (by rw [pow_succ]; omega) (by omega) hrow
  obtain ⟨ws', d1, d2⟩ := commitRows_cells s.ext n _ h.cells hn (St.numRows n + 1) 0 (by have := h.cells.rows; omega)
  rw [pow_zero, Nat.div_one, c1] at d1
  injection d1 with d1
  subst d1
  have hnum := h.num
  have hl := Codec.writeBE64_length big (BitVec.ofNat 64 n)
  refine ⟨Codec.writeBE64 big (BitVec.ofNat 64 n) :: ws, ?_, ⟨?_, ?_, ?_⟩, ?_⟩
  · unfold commitWrites
    rw [hnum, c1]; rfl
  · rw [List.flatten_cons, List.length_append]; omega
  · rw [List.flatten_cons, List.take_append_of_le_length (by omega), List.take_of_length_le (by omega),
      (C35_writeBE64 big _).2, BitVec.toNat_ofNat, Nat.mod_eq_of_lt (by omega)]
    simp
  · rw [List.flatten_cons, List.drop_append_of_le_length (by omega), List.drop_eq_nil_of_le (by omega), List.nil_append, d2]
    have e : List.range 64 = List.range' 0 (St.numRows n + 1) ++ List.range' (0 + 1 * (St.numRows n + 1)) (63 - St.numRows n) := by
      rw [List.range'_append, List.range_eq_range']
      congr 1
      omega
    rw [e, List.flatMap_append]
    have e0 : ∀ (F : ℕ → ℕ → List Byte), (List.range' (0 + 1 * (St.numRows n + 1)) (63 - St.numRows n)).flatMap
        (fun r => (List.range (((List.range n).map f).length / 2 ^ r)).flatMap (F r)) = [] := by
      intro F
      rw [List.flatMap_eq_nil_iff]
      intro r hr
      rw [List.mem_range'_1] at hr
      have : n / 2 ^ r = 0 := by
        apply Nat.div_eq_of_lt
        have := Nat.pow_le_pow_right (n := 2) (by omega) (show St.numRows n + 1 ≤ r by omega)
        rw [pow_succ] at this; omega
      rw [List.length_map, List.length_range, this]; rfl
    rw [e0, List.append_nil]
    apply List.flatMap_congr
    intro r _
    rw [List.length_map, List.length_range]
    apply List.flatMap_congr
    intro x hx
    rw [List.mem_range] at hx
    apply congrArg
    apply mt_congr
    intro y hy
    rw [leafFn_range]
    by_contra hc
    have := Nat.div_le_div_right (c := 2 ^ r) (Nat.le_of_not_lt hc)
    omega
  · intro big' post
    obtain ⟨bs, r1, r2⟩ := read_count big big' n (by omega) (ws.flatten ++ post)
    unfold restore reopen
    rw [List.flatten_cons, List.append_assoc, r1, ok_bind, r2]
    have := c3 (Codec.writeBE64 big (BitVec.ofNat 64 n)) post
    rw [hl] at this
    simp only [this, hnum, c2]

/-- C31: `Commit` writes the leaf count and the rows of the forest over the beginning of the file,
leaving what follows, and `Restore` then gives a forest that a caller cannot tell from the one
that was committed. This holds whatever the file contained, also when the program reading the file
runs on a machine of the other byte order. The restriction to fewer than `2^31` leaves is due to the
`int` counters of `Commit` and `Restore`. -/
theorem C31_file {s : RamForest Hash32} {st : List (UndoBatch Hash32 × RamForest Hash32)} (h : Run s st) {L : List Hash32}
    (hL : Represents s L) (hn : L.length < 2 ^ 31) (file : List Byte) (big big' : Bool) :
    ∃ (bytes : List Byte) (s' : RamForest Hash32), ForestFile L bytes ∧
      commit big s file = .ok (bytes ++ file.drop bytes.length) ∧
      restore big' (bytes ++ file.drop bytes.length) = .ok s' ∧ Represents s' L ∧ Same s s' := by
  obtain ⟨n, f, h1, h2, h3⟩ := h.inv
  have hL' := hL.unique (h1.represents h2)
  subst hL'
  rw [List.length_map, List.length_range] at hn
  obtain ⟨ws, c1, c2, c3⟩ := commit_ok h1 hn big
  obtain ⟨s', r1, r2, -⟩ := reopen_ok h1 h2
  have hr := r2.represents h2
  refine ⟨ws.flatten, s', c2, ?_, by rw [c3, r1], hr, hL.same hr⟩
  unfold commit
  rw [c1, ok_bind, applyWrites_eq _ _ _ (by omega)]
  simp

/-- C31: the model step `reopen` of the histories in `Run` is `Commit` followed by `Restore`. -/
theorem C31_reopen {s : RamForest Hash32} {st : List (UndoBatch Hash32 × RamForest Hash32)} (h : Run s st)
    (hn : s.numLeaves < 2 ^ 31) (file : List Byte) (big big' : Bool) :
    (commit big s file >>= restore big') = reopen s := by
  obtain ⟨n, f, h1, h2, h3⟩ := h.inv
  rw [h1.num] at hn
  obtain ⟨ws, c1, c2, c3⟩ := commit_ok h1 hn big
  unfold commit
  rw [c1, ok_bind, applyWrites_eq _ _ _ (by omega)]
  simp only [List.take_zero, List.nil_append]
  exact c3 _ _

/-- C31: the constructor, given a file that does not exist, creates one that restores to the empty
forest. -/
theorem C31_create (big big' : Bool) : ∃ (s s' : RamForest Hash32) (file : List Byte), create big = .ok (s, file) ∧
    restore big' file = .ok s' ∧ Represents s [] ∧ Represents s' [] := by
  have h0 : Inv (mk 0 : RamForest Hash32) 0 _ := mk_inv
  obtain ⟨ws, c1, c2, c3⟩ := commit_ok h0 (by omega) big
  obtain ⟨s', r1, r2, -⟩ := reopen_ok h0 (by omega)
  refine ⟨mk 0, s', ws.flatten, ?_, ?_, h0.represents (by omega), r2.represents (by omega)⟩
  · show (commit big (mk 0 : RamForest Hash32) [] >>= fun file => pure (mk 0, file)) = _
    unfold commit
    rw [c1, ok_bind, applyWrites_eq _ _ _ (by omega)]
    simp
  · have := c3 big' []
    rw [List.append_nil] at this
    rw [this, r1]

/-! ## Crashes -/

/-- The file when the process stops after `k` bytes of `Commit` reached the file. -/
def crashFile (big : Bool) (s : RamForest Hash32) (file : List Byte) (k : ℕ) : Res (List Byte) := do
  let ws ← commitWrites big s
  return writeAt file 0 (ws.flatten.take k)

/-- C32 holds when nothing changed since the last `Commit`, and for crashes before the first or
after the last byte. Missing: all other crash points. There the claim is false, see `C32_false`. -/
theorem C32_crash_partial {s : RamForest Hash32} {st : List (UndoBatch Hash32 × RamForest Hash32)} (h : Run s st)
    (hn : s.numLeaves < 2 ^ 31) (file : List Byte) (big : Bool) :
    crashFile big s file 0 = .ok file ∧
    ∃ size, (∀ k, size ≤ k → crashFile big s file k = commit big s file) ∧
      ∀ file', commit big s file = .ok file' → ∀ k, crashFile big s file' k = .ok file' := by
  obtain ⟨n, f, h1, h2, h3⟩ := h.inv
  rw [h1.num] at hn
  obtain ⟨ws, c1, c2, c3⟩ := commit_ok h1 hn big
  unfold crashFile commit
  rw [c1]
  simp only [ok_bind, pure_ok, applyWrites_eq _ _ _ (Nat.zero_le _)]
  unfold writeAt
  refine ⟨by simp, ws.flatten.length, ?_, ?_⟩
  · intro k hk
    rw [List.take_of_length_le (l := ws.flatten) hk]
  · rintro file' hf k
    injection hf with hf
    subst hf
    apply congrArg Except.ok
    simp only [List.take_zero, List.nil_append, zero_add]
    rcases Nat.le_total k ws.flatten.length with hk | hk
    · rw [List.length_take, Nat.min_eq_left hk, List.drop_append_of_le_length hk, ← List.append_assoc, List.take_append_drop]
    · rw [List.take_of_length_le hk, List.drop_left]

end Props

section Examples

/-- A toy hash on 32 byte strings. -/
@[instance_reducible] def toyOps32 : HashOps Hash32 :=
  ⟨fun a b => ⟨List.zipWith (fun x y => 3 * x + y + 1) a.val b.val, by rw [List.length_zipWith, a.property, b.property]; rfl⟩,
    ⟨List.replicate 32 0, List.length_replicate⟩⟩

attribute [local instance] toyOps32

/-- A toy leaf. -/
def toyHash (b : Byte) : Hash32 := ⟨List.replicate 32 b, List.length_replicate⟩

/-- The leaves of the forest in a file. -/
def fileLeaves (file : List Byte) : Res (List Hash32) := do
  let s ← restore false file
  readLeafRange s 0 s.numLeaves

/-- A non-trivial case of C31: five leaves are committed over a longer file and restored. -/
example : (do
    let (_, _, s) ← modify (mk 0) ([1, 2, 3, 4, 5].map fun b => (toyHash b, false)) []
    fileLeaves (← commit false s (List.replicate 1000 7))) = .ok ([1, 2, 3, 4, 5].map toyHash) := by decide +kernel

instance : DecidableEq (Res (List Hash32)) := inferInstance

/-- Two committed states, and a crash during the second `Commit` after the eight bytes of the leaf
count: the leaves of the file before, after the crash, and after an undisturbed `Commit`. -/
def crashRun (adds1 : List Byte) (targets : List ℕ) (adds2 : List Byte) : Res (List (Res (List Hash32))) := do
  let (_, _, s1) ← modify (mk 0) (adds1.map fun b => (toyHash b, false)) []
  let f1 ← commit false s1 []
  let (_, _, s2) ← modify s1 (adds2.map fun b => (toyHash b, false)) targets
  let f2 ← crashFile false s2 f1 8
  let f3 ← commit false s2 f1
  return [fileLeaves f1, fileLeaves f2, fileLeaves f3]

/-- C32 is false. Adding a leaf to a file with one leaf and crashing gives a file that cannot be
read; deleting the first of two leaves and crashing gives a file that restores to the forest
with the deleted leaf only, which was never committed. -/
theorem C32_false :
    crashRun [1] [] [2] = .ok [.ok [toyHash 1], .error .ub, .ok [toyHash 1, toyHash 2]] ∧
    crashRun [1, 2] [0] [] = .ok [.ok [toyHash 1, toyHash 2], .ok [toyHash 1], .ok [toyHash 2]] := by decide +kernel

end Examples

end Utreexo
