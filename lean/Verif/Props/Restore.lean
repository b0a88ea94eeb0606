import Verif.Props.File
import Verif.Props.Exact
import Verif.Proof.Restore

/-!
# C57: opening an arbitrary file. The crashes of C32.
-/

set_option linter.unusedSectionVars false

namespace Utreexo
open Spec Equiv Ram File

namespace File

theorem leValue_inj : ∀ (a b : List Byte), a.length = b.length → leValue a = leValue b → a = b := by
  intro a
  induction a with
  | nil => intro b h _; exact (List.length_eq_zero_iff.1 h.symm).symm
  | cons x a ih =>
    intro b h e
    cases b with
    | nil => simp at h
    | cons y b =>
      have hx := x.isLt
      have hy := y.isLt
      have e' : x.toNat + 256 * leValue a = y.toNat + 256 * leValue b := e
      have h1 : x = y := BitVec.eq_of_toNat_eq (by omega)
      rw [h1, ih b (by simpa using h) (by omega)]

theorem beValue_inj {a b : List Byte} (h : a.length = b.length) (e : beValue a = beValue b) : a = b := by
  rw [Codec.beValue_eq, Codec.beValue_eq] at e
  exact List.reverse_injective (leValue_inj _ _ (by simpa using h) e)

end File

section
variable {H : Type} [DecidableEq H] [HashOps H]

/-- The forest proves each of the leaves `L`: the target is the place of the leaf, and the hashes are the Merkle hashes
of the proof nodes. -/
def Proves (s : RamForest H) (L : List H) : Prop :=
  ∀ h ∈ L, ∃ (p : BatchProof H) (t : ℕ) (nodes : List (ℕ × ℕ)), Acc.prove vt s [h] = .ok (some p) ∧
    p.targets = [t] ∧ L[t]? = some h ∧ Pol.ProofNodes L.length [t] nodes ∧
    p.hashes = nodes.map fun a => merkle HashOps.ph (leafFn HashOps.zero L) a.1 a.2

theorem Ram.prove_single {s : RamForest H} {n : ℕ} {c : ℕ → ℕ → H} (hs : s.numLeaves = n) (hn : n ≤ 2 ^ 62)
    (hc : Cells s.ext n c) {h : H} {a : ℕ} (hf : PosMap.find s.posmap h = some a) (ha : a < n) :
    ∃ nodes, Pol.ProofNodes n [a] nodes ∧ (∀ p ∈ nodes, p.2 < n / 2 ^ p.1) ∧
      Acc.prove vt s [h] = .ok (some (BatchProof.mk' [a] (nodes.map fun p => c p.1 p.2))) := by
  have c1 : [a].Pairwise (· < ·) := List.pairwise_singleton _ _
  have c2 : ∀ t ∈ [a], t < n := by simpa using ha
  obtain ⟨nodes, comp, p1, p2, p3, p4⟩ := proof_nodes hn c1 c2
  refine ⟨nodes, ⟨p2, p3⟩, p4, ?_⟩
  unfold Acc.prove
  have hl : Acc.lookupTargets s.posmap [h] = some [a] := by
    rw [Acc.lookupTargets, hf]; rfl
  rw [hl]
  simp only
  have hsort : St.sortU64 [a] = [a] := rfl
  rw [hsort]
  obtain ⟨b, b1, b2⟩ := C07_checkTargetsSanity s.numLeaves [a]
  rw [b1, ok_bind, b2.2 ⟨c1, by rw [hs]; exact c2⟩]
  simp only [Bool.not_true, Bool.false_eq_true, if_false]
  rw [hs, p1, ok_bind]
  simp only
  rw [readProof_ok hs hn hc nodes p4, ok_bind]
  rfl

theorem Pol.ProofNodes.unique {n : ℕ} {T : List ℕ} {a b : List (ℕ × ℕ)} (ha : Pol.ProofNodes n T a)
    (hb : Pol.ProofNodes n T b) : a = b := by
  have nd : ∀ {l : List (ℕ × ℕ)}, Pol.ProofNodes n T l → l.Nodup := fun h => h.1.imp (fun {x y} hxy e => by
    rw [e] at hxy; omega)
  refine List.Perm.eq_of_pairwise (fun x y _ _ h1 h2 => by omega) ha.1 hb.1 ?_
  rw [List.perm_ext_iff_of_nodup (nd ha) (nd hb)]
  rintro ⟨r, k⟩
  rw [ha.2, hb.2]

theorem Ram.Run.proves {s : RamForest H} {st : List (UndoBatch H × RamForest H)} (h : Run s st) {L : List H}
    (hL : Represents s L) : Proves s L := by
  intro x hx
  obtain ⟨r, e1, e2, e3⟩ := C22_prove s st h L hL [x]
  obtain ⟨p, rfl⟩ := Option.isSome_iff_exists.1 (e2.2 ⟨by simp, by simpa using hx⟩)
  obtain ⟨g1, -, -, nodes, g4, g5, g6⟩ := e3 p rfl
  have hl : p.targets.length = 1 := by simpa using congrArg List.length g1
  obtain ⟨t, ht⟩ := List.length_eq_one_iff.1 hl
  rw [ht] at g1 g5
  exact ⟨p, t, nodes, e1, ht, by simpa using g1, ⟨g4, g5⟩, g6⟩

end

section Props
variable [HashOps Hash32]

/-- The file of a list of leaves, node by node. -/
theorem forestFile_iff {L : List Hash32} {bytes : List Byte} (hL : L.length < 2 ^ 64) : ForestFile L bytes ↔
    beValue (bytes.take 8) = L.length ∧ bytes.length = diskSize L.length ∧
    ∀ r x, x < L.length / 2 ^ r →
      stored bytes L.length r x = (merkle HashOps.ph (leafFn HashOps.zero L) r x).val := by
  have hd : ∀ off, (bytes.drop 8).drop off = bytes.drop (8 + off) := fun off => by rw [List.drop_drop]
  constructor
  · rintro ⟨h0, h1, h2⟩
    have hlen := congrArg List.length h2
    rw [pieces_length, List.length_drop] at hlen
    refine ⟨h1, by unfold diskSize; omega, ?_⟩
    intro r x hx
    have hr : r < 64 := by
      by_contra hc
      have : L.length / 2 ^ r = 0 := Nat.div_eq_of_lt (lt_of_lt_of_le hL (Nat.pow_le_pow_right (by omega) (by omega)))
      omega
    have := piece (fun r x => merkle HashOps.ph (leafFn HashOps.zero L) r x) L.length hr hx
    rw [← h2, hd] at this
    exact this
  · rintro ⟨h1, h2, h3⟩
    unfold diskSize at h2
    refine ⟨by omega, h1, ?_⟩
    have := slices (bytes.drop 8) L.length 64
    rw [List.take_of_length_le (by rw [List.length_drop]; omega)] at this
    rw [this]
    apply List.flatMap_congr
    intro r _
    apply List.flatMap_congr
    intro x hx
    rw [hd]
    exact h3 r x (List.mem_range.1 hx)

theorem ForestFile.unique {L : List Hash32} {a b : List Byte} (ha : ForestFile L a) (hb : ForestFile L b) : a = b := by
  rw [← List.take_append_drop 8 a, ← List.take_append_drop 8 b, ha.nodes, hb.nodes]
  congr 1
  have h1 := ha.header
  have h2 := hb.header
  exact beValue_inj (by simp; omega) (ha.count.trans hb.count.symm)

theorem File.restore_num {big : Bool} {file : List Byte} {s : RamForest Hash32} (h : restore big file = .ok s)
    (h8 : 8 ≤ file.length) : s.numLeaves = beValue (file.take 8) := by
  have hl : (file.take 8).length = 8 := by simp; omega
  unfold restore memRead at h
  rw [if_pos (by omega), List.drop_zero, ok_bind, Codec.readBE64_eq big _ hl, BitVec.toNat_ofNat,
    Nat.mod_eq_of_lt (by have := Codec.beValue_lt (file.take 8); rw [hl] at this; exact this)] at h
  simp only at h
  obtain ⟨data, -, h⟩ := bind_eq_ok.1 h
  unfold restoreRoots at h
  obtain ⟨ps, -, h⟩ := bind_eq_ok.1 h
  obtain ⟨rs, -, h⟩ := bind_eq_ok.1 h
  simp only [pure_ok, Except.ok.injEq] at h
  rw [← h]

/-- C57: opening any file. A file shorter than its header, or shorter than the nodes it declares, is undefined behaviour
(the code reads uninitialised buffers). Any other file gives a forest that shows what is in the file: nothing is checked. A
leaf that occurs more than once is found at its last place, and its proof consists of the stored nodes. -/
theorem C57_restore (big : Bool) (file : List Byte) (n : ℕ) (hn : n = beValue (file.take 8)) :
    (file.length < 8 → restore big file = .error .ub) ∧
    (8 ≤ file.length → file.length < diskSize n → restore big file = .error .ub) ∧
    (8 ≤ file.length → diskSize n ≤ file.length → n ≤ 2 ^ 62 → ∃ s, restore big file = .ok s ∧ s.numLeaves = n ∧
      (∀ i, i < n → ∃ h, getLeaf s i = .ok h ∧ h.val = stored file n 0 i) ∧
      (∃ rs, roots s = .ok rs ∧ rs.map Subtype.val = (treeRows n 64).map fun t => stored file n t (rootIdx n t)) ∧
      (∀ h p, PosMap.find s.posmap h = some p ↔
        p < n ∧ stored file n 0 p = h.val ∧ ∀ q, p < q → q < n → stored file n 0 q ≠ h.val) ∧
      ∀ h p, PosMap.find s.posmap h = some p → ∃ pf nodes, Acc.prove vt s [h] = .ok (some pf) ∧ pf.targets = [p] ∧
        Pol.ProofNodes n [p] nodes ∧ pf.hashes.map Subtype.val = nodes.map fun a => stored file n a.1 a.2) := by
  obtain ⟨r1, r2, r3⟩ := restore_cases big file n hn
  refine ⟨r1, r2, fun h8 hsize hn62 => ?_⟩
  obtain ⟨s, e1, e2, e3, -, e5, e6⟩ := r3 h8 hsize hn62
  have hval : ∀ r x, x < n / 2 ^ r → (node file n r x).val = stored file n r x := by
    intro r x hx
    unfold node stored
    apply hashAt_val
    have hr : r < 64 := by
      by_contra hc
      have : n / 2 ^ r = 0 := Nat.div_eq_of_lt (lt_of_lt_of_le (show n < 2 ^ 64 by omega)
        (Nat.pow_le_pow_right (by omega) (by omega)))
      omega
    have hm := nodesBelow_mono (n := n) (show r + 1 ≤ 64 by omega)
    rw [nodesBelow_succ] at hm
    unfold diskSize at hsize
    generalize n / 2 ^ r = y at *
    omega
  have hval0 : ∀ x, x < n → (node file n 0 x).val = stored file n 0 x := fun x hx => hval 0 x (by simpa using hx)
  have hfind : ∀ h p, PosMap.find s.posmap h = some p ↔
      p < n ∧ stored file n 0 p = h.val ∧ ∀ q, p < q → q < n → stored file n 0 q ≠ h.val := by
    intro h p
    rw [e5, List.range_eq_range', restorePosmap_find]
    simp only [Nat.zero_le, true_and, zero_add]
    have : ∀ q, q < n → (node file n 0 q = h ↔ stored file n 0 q = h.val) := by
      intro q hq
      rw [← hval0 q hq]
      exact Subtype.ext_iff
    constructor
    · rintro (⟨h1, h2, h3⟩ | ⟨h1, -⟩)
      · exact ⟨h1, (this p h1).1 h2, fun q a b => fun e => h3 q a b ((this q b).2 e)⟩
      · exact absurd h1 (by simp [PosMap.find])
    · rintro ⟨h1, h2, h3⟩
      exact .inl ⟨h1, (this p h1).2 h2, fun q a b => fun e => h3 q a b ((this q b).1 e)⟩
  refine ⟨s, e1, e2, ?_, ?_, hfind, ?_⟩
  · intro i hi
    refine ⟨node file n 0 i, ?_, hval0 i hi⟩
    unfold getLeaf
    rw [e2, cassert_true (by simpa using hi), ok_bind, read_leaf e2 hn62 e3 hi]
  · refine ⟨(treeRows n 64).map fun t => node file n t (rootIdx n t), ?_, ?_⟩
    · unfold Ram.roots Acc.rootHashes
      refine mapM_hash s _ _ ?_
      rw [e6, List.map_map]
      rfl
    · rw [List.map_map]
      apply List.map_congr_left
      intro t ht
      exact hval t _ (root_in (mem_treeRows.1 ht).2)
  · intro h p hp
    obtain ⟨nodes, g1, g2, g3⟩ := Ram.prove_single e2 hn62 e3 hp ((hfind h p).1 hp).1
    refine ⟨_, nodes, g3, rfl, g1, ?_⟩
    show (nodes.map fun p => node file n p.1 p.2).map Subtype.val = _
    rw [List.map_map]
    apply List.map_congr_left
    intro a ha
    exact hval _ _ (g2 a ha)

/-- C57: a file in the right format, whoever wrote it and whatever follows in it, opens to a forest about which all theorems
on histories hold. -/
theorem C57_open (big : Bool) (L : List Hash32) (hnd : L.Nodup) (hlen : L.length < 2 ^ 31) (bytes post : List Byte)
    (hf : ForestFile L bytes) : ∃ s, restore big (bytes ++ post) = .ok s ∧ Run s [] ∧ Represents s L := by
  have h0 : Represents (mk 0 : RamForest Hash32) [] := by
    have := (mk_inv (H := Hash32)).represents (by omega)
    simpa using this
  have hm : (L.map fun h => (h, false)).map Prod.fst = L := by rw [List.map_map]; simp [Function.comp_def]
  obtain ⟨u, s, k1, k2, k3⟩ := C17_add (mk 0) [] .empty [] h0 (L.map fun h => (h, false)) (by
    rw [hm]
    exact ⟨List.Pairwise.nil, by simp, hnd, by simp [survivors], by simp, by simp; omega⟩)
  rw [hm, List.nil_append] at k3
  obtain ⟨n, f, i1, i2, -⟩ := k2.inv
  have e := k3.unique (i1.represents i2)
  have hn : n < 2147483648 := by
    have := congrArg List.length e
    simp at this
    omega
  obtain ⟨ws, c1, c2, c3⟩ := commit_ok i1 hn big
  rw [← e] at c2
  obtain ⟨s', d1, d2, -⟩ := reopen_ok i1 i2
  refine ⟨s', ?_, .reopen k2 d1 (List.nil_prefix) (by simp), ?_⟩
  · rw [hf.unique c2, c3, d1]
  · rw [e]; exact d2.represents i2

/-- C57: which files are in order. The forest opened from a file shows the leaves `L` with right roots and gives a right
proof for each of them if and only if the leaves are distinct and the file starts with their encoding. Hence every file that
differs from it in a single byte, also in an inner node, opens to a forest with wrong leaves, wrong roots or a wrong proof. -/
theorem C57_exact (big : Bool) (file : List Byte) (s : RamForest Hash32) (h : restore big file = .ok s)
    (hs : s.numLeaves < 2 ^ 31) (L : List Hash32) :
    Represents s L ∧ Proves s L ↔ L.Nodup ∧ ForestFile L (file.take (diskSize L.length)) := by
  constructor
  · rintro ⟨hr, hp⟩
    have h8 : 8 ≤ file.length := by
      by_contra hc
      rw [(restore_cases big file _ rfl).1 (by omega)] at h
      cases h
    have hsz : diskSize (beValue (file.take 8)) ≤ file.length := by
      by_contra hc
      rw [(restore_cases big file _ rfl).2.1 h8 (by omega)] at h
      cases h
    have hbig : beValue (file.take 8) ≤ 2 ^ 62 := by
      by_contra hc
      have e := restore_num h h8
      omega
    obtain ⟨s1, e1, e2, e3, e4, e5, e6⟩ := (restore_cases big file _ rfl).2.2 h8 hsz hbig
    rw [e1] at h
    injection h with h
    subst h
    generalize hn : beValue (file.take 8) = n at *
    have hLn : L.length = n := by rw [← hr.count, e2]
    have hlt : ∀ i, i < n → L[i]? = some (leafFn HashOps.zero L i) := by
      intro i hi
      unfold leafFn
      rw [List.getD_eq_getElem?_getD, List.getElem?_eq_getElem (by omega)]; rfl
    have hnd : L.Nodup := by
      rw [List.nodup_iff_getElem?_ne_getElem?]
      intro i j hij hj he
      have h1 := (hr.find _ i).2 (he.trans (hlt j (by omega)))
      have h2 := (hr.find _ j).2 (hlt j (by omega))
      rw [h1] at h2
      injection h2 with h2
      omega
    have hleaf : ∀ i, i < n → node file n 0 i = leafFn HashOps.zero L i := by
      intro i hi
      have h1 := hr.leaf i _ (hlt i hi)
      unfold getLeaf at h1
      rw [e2, cassert_true (by simpa using hi), ok_bind, read_leaf e2 hbig e3 hi] at h1
      injection h1
    have hroot : ∀ t, n.testBit t = true → node file n t (rootIdx n t) = mt (leafFn HashOps.zero L) t (rootIdx n t) := by
      intro t ht
      have h1 := hr.roots
      unfold Ram.roots Acc.rootHashes at h1
      have h2 := mapM_hash s1 s1.roots ((treeRows n 64).map fun t => node file n t (rootIdx n t)) (by
        rw [e6, List.map_map]; rfl)
      have h3 : (Except.ok ((treeRows n 64).map fun t => node file n t (rootIdx n t)) : Res (List Hash32)) =
          .ok (merkleRoots HashOps.ph (leafFn HashOps.zero L) L.length) := by rw [← h1, ← h2]; rfl
      injection h3 with h3
      rw [hLn] at h3
      unfold merkleRoots at h3
      rw [List.map_inj_left] at h3
      refine h3 t (mem_treeRows.2 ⟨?_, ht⟩)
      by_contra hc
      have : n.testBit t = false := Nat.testBit_lt_two_pow (lt_of_lt_of_le (show n < 2 ^ 64 by omega)
        (Nat.pow_le_pow_right (by omega) (by omega)))
      rw [this] at ht; cases ht
    have hall : ∀ r x, x < n / 2 ^ r → node file n r x = mt (leafFn HashOps.zero L) r x := by
      intro r x hx
      have hdiv : n / 2 ^ (r + 1) = n / 2 ^ r / 2 := by rw [pow_succ, Nat.div_div_eq_div_mul]
      by_cases hpar : x / 2 < n / 2 ^ (r + 1)
      · -- the node is in the proof of a leaf under its sibling
        obtain ⟨b, j, hb, hxj⟩ : ∃ b j, b < 2 ∧ x = 2 * j + (1 - b) := ⟨1 - x % 2, x / 2, by omega, by omega⟩
        have hj : j < n / 2 ^ (r + 1) := by have : x / 2 = j := by omega
                                            omega
        have hy : 2 * j + b < n / 2 ^ r := by omega
        have ha : (2 * j + b) * 2 ^ r < n := by
          have := (Nat.le_div_iff_mul_le (k := 2 ^ r) (x := 2 * j + b + 1) (y := n) (by positivity)).1 hy
          have hp := Nat.two_pow_pos r
          nlinarith
        obtain ⟨p, t, nodes, g1, g2, g3, g4, g5⟩ := hp (leafFn HashOps.zero L ((2 * j + b) * 2 ^ r))
          (List.mem_of_getElem? (hlt _ ha))
        obtain ⟨nodes', k1, k2, k3⟩ := Ram.prove_single e2 hbig e3 ((hr.find _ t).2 g3) (by
          rw [← hLn]; exact (List.getElem?_eq_some_iff.1 g3).1)
        have ht : t = (2 * j + b) * 2 ^ r := by
          have h1 := (hr.find _ t).2 g3
          have h2 := (hr.find _ _).2 (hlt _ ha)
          rw [h1] at h2
          injection h2
        rw [k3] at g1
        simp only [Except.ok.injEq, Option.some.injEq] at g1
        subst g1
        rw [hLn] at g4
        have hnn := g4.unique k1
        subst hnn
        have g5' : (nodes.map fun p => node file n p.1 p.2) =
          nodes.map fun a => merkle HashOps.ph (leafFn HashOps.zero L) a.1 a.2 := g5
        rw [List.map_inj_left] at g5'
        refine g5' (r, x) ((g4.2 r x).2 ⟨j, b, hb, hxj, inForest_iff.2 hj, ⟨t, by simp, ?_⟩, ?_⟩)
        · rw [ht, Nat.mul_div_cancel _ (Nat.two_pow_pos r)]
        · intro a ha'
          have : a = t := by simpa using ha'
          rw [this, ht, Nat.mul_div_cancel _ (Nat.two_pow_pos r)]
          omega
      · have ht : n.testBit r = true := by
          have := testBit_div (n := n) (t := r)
          by_contra hc
          rw [if_neg hc] at this
          omega
        have hx' : x = rootIdx n r := by
          unfold rootIdx
          omega
        rw [hx']
        exact hroot r ht
    refine ⟨hnd, (forestFile_iff (by omega)).2 ⟨?_, ?_, ?_⟩⟩
    · rw [List.take_take, min_eq_left (by unfold diskSize; omega), hLn]; exact hn
    · rw [List.length_take, hLn]; omega
    · rw [hLn]
      intro r x hx
      have hr' : r < 64 := by
        by_contra hc
        have : n / 2 ^ r = 0 := Nat.div_eq_of_lt (lt_of_lt_of_le (show n < 2 ^ 64 by omega)
          (Nat.pow_le_pow_right (by omega) (by omega)))
        omega
      have hm := nodesBelow_mono (n := n) (show r + 1 ≤ 64 by omega)
      rw [nodesBelow_succ] at hm
      have hfit : 8 + 32 * (nodesBelow n r + x) + 32 ≤ diskSize n := by
        unfold diskSize
        generalize n / 2 ^ r = y at *
        omega
      rw [← show node file n r x = merkle HashOps.ph (leafFn HashOps.zero L) r x from hall r x hx]
      unfold node stored
      rw [hashAt_val (by omega), List.drop_take, List.take_take, min_eq_left (by omega)]
  · rintro ⟨hnd, hf⟩
    have hlen : L.length < 2 ^ 31 := by
      have h8 := hf.header
      have hc := hf.count
      rw [List.take_take, min_eq_left (by unfold diskSize; omega)] at hc
      rw [← hc, ← restore_num h (by rw [List.length_take] at h8; omega)]
      exact hs
    obtain ⟨s', k1, k2, k3⟩ := C57_open big L hnd hlen _ (file.drop (diskSize L.length)) hf
    rw [List.take_append_drop, h] at k1
    injection k1 with k1
    subst k1
    exact ⟨k3, k2.proves k3⟩

/-- C57: a file opens to a forest that shows and proves the leaves `L` if and only if they are distinct and their encoding
is a prefix of the file. -/
theorem C57_opens_iff (big : Bool) (file : List Byte) (L : List Hash32) (hlen : L.length < 2 ^ 31) :
    (∃ s, restore big file = .ok s ∧ Represents s L ∧ Proves s L) ↔ L.Nodup ∧ ∃ bytes, ForestFile L bytes ∧ bytes <+: file := by
  constructor
  · rintro ⟨s, h1, h2⟩
    obtain ⟨h3, h4⟩ := (C57_exact big file s h1 (by rw [h2.1.count]; exact hlen) L).1 h2
    exact ⟨h3, _, h4, List.take_prefix _ _⟩
  · rintro ⟨h1, bytes, h2, post, rfl⟩
    obtain ⟨s, k1, k2, k3⟩ := C57_open big L h1 hlen bytes post h2
    exact ⟨s, k1, k3, k2.proves k3⟩

/-! ## C32: crashes -/

/-- C32, every crash point: let `Commit` of a forest with leaves `L` stop after `k` bytes have reached the file, and let the
file have started with the encoding `old` of the leaves `L₀`.

* The file opens to a forest that shows and proves `L` if and only if the bytes that did not reach the file were in it before.
* It opens to a forest that shows and proves `L₀` if and only if the bytes that reached the file are those of `old`, as far
  as `old` goes. -/
theorem C32_exact (big big' : Bool) {s : RamForest Hash32} {st : List (UndoBatch Hash32 × RamForest Hash32)} (h : Run s st)
    {L L₀ : List Hash32} (hL : Represents s L) (hn : L.length < 2 ^ 31) (hnd₀ : L₀.Nodup) (hn₀ : L₀.length < 2 ^ 31)
    (old rest : List Byte) (hold : ForestFile L₀ old) (k : ℕ) :
    ∃ new file, ForestFile L new ∧ crashFile big s (old ++ rest) k = .ok file ∧
      ((∃ s', restore big' file = .ok s' ∧ Represents s' L ∧ Proves s' L) ↔
        ∀ i, k ≤ i → i < new.length → (old ++ rest)[i]? = new[i]?) ∧
      ((∃ s', restore big' file = .ok s' ∧ Represents s' L₀ ∧ Proves s' L₀) ↔
        ∀ i, i < k → i < new.length → i < old.length → new[i]? = old[i]?) := by
  obtain ⟨n, f, h1, h2, h3⟩ := h.inv
  have hL' := hL.unique (h1.represents h2)
  have hnd : L.Nodup := by
    obtain ⟨L', a1, a2, -⟩ := C16_represents s st h
    rw [hL.unique a1]; exact a2
  have hln : n < 2147483648 := by
    have := congrArg List.length hL'
    simp at this
    omega
  obtain ⟨ws, c1, c2, c3⟩ := commit_ok h1 hln big
  rw [← hL'] at c2
  generalize hnew : ws.flatten = new at *
  have hpre : ∀ (K : List Hash32) (enc fl : List Byte), ForestFile K enc →
      ((∃ bytes, ForestFile K bytes ∧ bytes <+: fl) ↔ ∀ i, i < enc.length → fl[i]? = enc[i]?) := by
    intro K enc fl he
    constructor
    · rintro ⟨b, b1, b2⟩ i hi
      rw [b1.unique he, List.prefix_iff_getElem?] at b2
      rw [b2 i hi, List.getElem?_eq_getElem hi]
    · intro hi
      refine ⟨enc, he, List.prefix_iff_getElem?.2 fun i h => ?_⟩
      rw [hi i h, List.getElem?_eq_getElem h]
  have hfile : ∀ i, (writeAt (old ++ rest) 0 (new.take k))[i]? =
      if i < k ∧ i < new.length then new[i]? else (old ++ rest)[i]? := by
    intro i
    unfold writeAt
    rw [List.take_zero, List.nil_append, zero_add]
    by_cases hi : i < k ∧ i < new.length
    · rw [if_pos hi, List.getElem?_append_left (by rw [List.length_take]; omega), List.getElem?_take, if_pos hi.1]
    · rw [if_neg hi, List.getElem?_append_right (by rw [List.length_take]; omega), List.getElem?_drop]
      congr 1
      rw [List.length_take]
      omega
  refine ⟨new, writeAt (old ++ rest) 0 (new.take k), c2, ?_, ?_, ?_⟩
  · unfold crashFile
    rw [c1, ok_bind, hnew]; rfl
  · rw [C57_opens_iff big' _ L hn, hpre L new _ c2]
    constructor
    · rintro ⟨-, hp⟩ i hk hi
      have := hp i hi
      rwa [hfile, if_neg (by omega)] at this
    · intro hp
      refine ⟨hnd, fun i hi => ?_⟩
      rw [hfile]
      split
      · rfl
      · exact hp i (by omega) hi
  · rw [C57_opens_iff big' _ L₀ hn₀, hpre L₀ old _ hold]
    constructor
    · rintro ⟨-, hp⟩ i hk hi ho
      have := hp i ho
      rwa [hfile, if_pos ⟨hk, hi⟩] at this
    · intro hp
      refine ⟨hnd₀, fun i hi => ?_⟩
      rw [hfile]
      split
      · rename_i hh
        exact hp i hh.1 hh.2 hi
      · rw [List.getElem?_append_left hi]

end Props

section Examples

attribute [local instance] toyOps32

/-- What the forest opened from a file shows: its leaves, its roots and the hashes of the proof of one leaf. -/
def shown (file : List Byte) (h : Hash32) : Res (List (List Hash32)) := do
  let s ← restore false file
  let ls ← readLeafRange s 0 s.numLeaves
  let rs ← roots s
  match ← Acc.prove vt s [h] with
  | some p => return [ls, rs, p.hashes]
  | none => return [ls, rs]

/-- The file of five leaves. -/
def fiveFile : Res (List Byte) := do
  let (_, _, s) ← modify (mk 0) ([1, 2, 3, 4, 5].map fun b => (toyHash b, false)) []
  commit false s []

/-- Nothing is detected. A byte of an inner node is changed: leaves and roots are the same as before, the proof of leaf 3
contains the damaged hash. A leaf is overwritten by a copy of another one: the file opens, both leaves are shown. The file is
cut by one byte, or to seven bytes, or empty: reading continues with uninitialised memory. -/
theorem C57_undetected_witness :
    (do let f ← fiveFile
        let a ← shown f (toyHash 3)
        let b ← shown (f.set (8 + 32 * 5) 99) (toyHash 3)
        pure (a.take 2 == b.take 2, a == b)) = .ok (true, false) ∧
    (do let f ← fiveFile
        fileLeaves (writeAt f 8 (toyHash 4).val)) = .ok ([4, 2, 3, 4, 5].map toyHash) ∧
    (do let f ← fiveFile
        pure [fileLeaves (f.take (f.length - 1)), fileLeaves (f.take 7), fileLeaves []]) =
      .ok [.error .ub, .error .ub, .error .ub] ∧
    (do let f ← fiveFile; pure (f.length, diskSize 5)) = .ok (264, 264) := by decide +kernel

/-- The hypotheses of `C57_open`, `C57_exact` and `C32_exact` are met by the files written by `Commit`. -/
example : ∃ L : List Hash32, L.Nodup ∧ L.length = 2 ∧ ∃ bytes, ForestFile L bytes := by
  have h0 : Represents (mk 0 : RamForest Hash32) [] := by
    have := (mk_inv (H := Hash32)).represents (by omega)
    simpa using this
  obtain ⟨u, s, k1, k2, k3⟩ := C17_add (mk 0) [] .empty [] h0 [(toyHash 1, false), (toyHash 2, false)]
    ⟨List.Pairwise.nil, by simp, by decide, by simp [survivors], by simp, by simp⟩
  obtain ⟨bytes, s', b1, -⟩ := C31_file k2 k3 (by simp) [] false false
  exact ⟨_, by decide, rfl, bytes, b1⟩

end Examples

end Utreexo
