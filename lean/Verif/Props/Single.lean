import Verif.Proof.Pairs
import Verif.Props.Record
import Verif.Props.Suite

/-!
# C30: deletions that do no harm

A remembered leaf that can be read and has a right position on record keeps both through every block that leaves its neighbour alone,
whatever else the block deletes and adds. A block that deletes a single leaf keeps every right position right. The second statement
makes the test `simple_posmap_updates` pass for all sizes (C79).
-/

set_option linter.unusedSectionVars false

namespace Utreexo
open Spec Equiv

variable {H : Type} [DecidableEq H] [HashOps H]

open Pol

namespace Pairs


/-- What a block leaves of the leaves before. -/
theorem rest_eq {L : List H} {adds : List H} {D : List ℕ} (hl : L.length ≤ 2 ^ 62) (hv : Ram.Valid L adds D) :
    (deleteLeaves L D ++ adds).take (L.length - D.length) = deleteLeaves L D := by
  have hp := C56_survivors L D hv.sorted hv.bound hl
  have hm : Modified L adds D (deleteLeaves L D ++ adds) := ⟨_, hp, rfl⟩
  obtain ⟨-, h2⟩ := take_modified hl hv hm
  exact (List.append_cancel_right h2).symm

theorem delete_nodup {L : List H} {adds : List H} {D : List ℕ} (hnd : L.Nodup) (hl : L.length ≤ 2 ^ 62) (hv : Ram.Valid L adds D) :
    (deleteLeaves L D).Nodup ∧ ∀ x, x ∈ deleteLeaves L D ↔ ∃ i, L[i]? = some x ∧ i ∉ D := by
  have hp := C56_survivors L D hv.sorted hv.bound hl
  refine ⟨hp.nodup_iff.2 ?_, fun x => by rw [hp.mem_iff, mem_survivors]⟩
  unfold survivors
  have : (L.zipIdx.filter fun p => !D.contains p.2).Sublist L.zipIdx := List.filter_sublist
  have h2 := this.map Prod.fst
  rw [List.zipIdx_map_fst] at h2
  exact hnd.sublist h2

/-- A leaf whose neighbour is not deleted keeps it. -/
theorem kept_neighbour {L : List H} {adds : List H} {D : List ℕ} (hnd : L.Nodup) (hl : L.length ≤ 2 ^ 62) (hv : Ram.Valid L adds D)
    {m : Memo H} {x g : H} (hx : x ∈ survivors L D) (hs : m.seen x = true) (hg : beside L x = some g) (hg' : g ∈ survivors L D) :
    beside (deleteLeaves L D) x = some g ∧ m.kept L (deleteLeaves L D) x = true := by
  obtain ⟨hM, hmem⟩ := delete_nodup hnd hl hv
  have key : beside (deleteLeaves L D) x = some g := by
    rcases beside_delete hnd hM ((hmem x).2 (mem_survivors.1 hx)) with ⟨g', h1, h2⟩ | ⟨⟨i, h1, -, h3⟩, -⟩
    · rw [hg] at h2
      rw [h1, Option.some.inj h2]
    · exfalso
      rw [beside_eq hnd h1] at hg
      rcases h3 with h3 | h3
      · obtain ⟨k, k1, k2⟩ := mem_survivors.1 hg'
        have := idx_eq hnd k1
        rw [idx_eq hnd hg] at this
        exact k2 (this ▸ h3)
      · rw [List.getElem?_eq_none h3] at hg
        simp at hg
  refine ⟨key, ?_⟩
  unfold Memo.kept
  rw [key]
  simp [hg, hs]

/-- A single deletion: a leaf that can be read keeps its neighbour, or has none, or the exchange of the bottom row takes it to its place. -/
theorem kept_single {L : List H} {adds : List H} {t : ℕ} (hnd : L.Nodup) (hl : L.length ≤ 2 ^ 62) (hv : Ram.Valid L adds [t])
    {m : Memo H} {x : H} (hx : x ∈ survivors L [t]) (hs : m.seen x = true) :
    m.kept L (deleteLeaves L [t]) x = true ∨
      ∃ g, beside (deleteLeaves L [t]) x = some g ∧ firstMove (L.idxOf x) (L.idxOf g) = (deleteLeaves L [t]).idxOf x := by
  obtain ⟨hM, hmem⟩ := delete_nodup hnd hl hv
  rcases beside_delete hnd hM ((hmem x).2 (mem_survivors.1 hx)) with ⟨g', h1, h2⟩ | ⟨⟨i, h1, h2, h3⟩, -, h4⟩
  · left
    unfold Memo.kept
    rw [h1]
    simp [h2, hs]
  · cases hb : beside (deleteLeaves L [t]) x with
    | none =>
      left
      unfold Memo.kept
      rw [hb]
    | some g =>
      right
      refine ⟨g, rfl, ?_⟩
      obtain ⟨k, g1, g2, g3⟩ := h4 g hb
      have hne : i ≠ k := by
        rintro rfl
        rw [h1] at g1
        obtain rfl := Option.some.inj g1
        have hxM := (hmem x).2 (mem_survivors.1 hx)
        obtain ⟨j, hj⟩ := List.mem_iff_getElem?.1 hxM
        rw [beside_eq hM hj] at hb
        have e1 := idx_eq hM hb
        rw [idx_eq hM hj] at e1
        have := xor_one_cases j
        split at this <;> omega
      have hi := (List.getElem?_eq_some_iff.1 h1).1
      have hk := (List.getElem?_eq_some_iff.1 g1).1
      rw [idx_eq hnd h1, idx_eq hnd g1]
      simp only [List.mem_singleton] at h2 h3 g2 g3
      have c1 := xor_one_cases i
      have c2 := xor_one_cases k
      have c3 := xor_one_cases t
      have ht : t < L.length := hv.bound t (by simp)
      have hodd : L.length % 2 = 1 := by
        split at c1 <;> split at c2 <;> omega
      have ht1 : t + 1 < L.length := by
        split at c1 <;> split at c2 <;> omega
      have hz : L.getLast? = some L[L.length - 1] := by
        rw [List.getLast?_eq_getElem?, List.getElem?_eq_getElem (by omega)]
      have hdel := delete_one hodd ht1 hz
      have hget : ∀ j, j + 1 < L.length → (deleteLeaves L [t])[j]? = if t = j then some L[L.length - 1] else L[j]? := by
        intro j hj
        rw [hdel, List.dropLast_eq_take, List.length_set, List.getElem?_take, if_pos (by omega), List.getElem?_set]
        split <;> rename_i hc
        · rfl
        · rfl
      unfold firstMove
      by_cases hik : i < k
      · rw [if_pos (.inr hik)]
        have h5 := hget i (by omega)
        rw [if_neg (by omega), h1] at h5
        exact (idx_eq hM h5).symm
      · rw [if_neg (by
          rintro (h | h)
          · split at c1 <;> split at c2 <;> omega
          · omega)]
        have hkt : k ^^^ 1 = t := by
          split at c1 <;> split at c2 <;> omega
        have hil : i = L.length - 1 := by
          split at c1 <;> split at c2 <;> omega
        have h5 := hget t ht1
        rw [if_pos rfl] at h5
        subst hil
        rw [List.getElem?_eq_getElem hi] at h1
        rw [Option.some.inj h1] at h5
        rw [hkt]
        exact (idx_eq hM h5).symm

/-- The list of leaves after a block, by the rule of `Spec.deleteLeaves`. -/
theorem list_eq {F F' : RamForest H} {st : List (UndoBatch H × RamForest H)} {u : UndoBatch H} {L L' : List H} {D : List ℕ}
    {leaves : List (Leaf H)} (h : Ram.Run F st) (hL : Ram.Represents F L) (hv : Ram.Valid L (leaves.map Prod.fst) D)
    (h4 : Ram.modify F leaves D = .ok (true, some u, F')) (hL' : Ram.Represents F' L') : L' = deleteLeaves L D ++ leaves.map Prod.fst := by
  obtain ⟨u1, F1, a1, -, a3⟩ := C56_order F st h L hL leaves D hv
  rw [h4] at a1
  simp only [Except.ok.injEq, Prod.mk.injEq, Option.some.injEq, true_and] at a1
  obtain ⟨rfl, rfl⟩ := a1
  exact hL'.unique a3

theorem get_idx {L : List H} {x : H} (h : x ∈ L) : L[L.idxOf x]? = some x := by
  rw [List.getElem?_eq_getElem (List.idxOf_lt_length_of_mem h), List.getElem_idxOf]

end Pairs

open Pairs

/-- C30, as far as it holds: a remembered leaf that can be read and whose position is right on record is provable after every block that
deletes nothing or neither it nor the leaf beside it, whatever other leaves the block deletes and adds; and it can be read again, so that
the same holds for the next block. -/
theorem C30_neighbour_partial (F F' : RamForest H) (st : List (UndoBatch H × RamForest H)) (u : UndoBatch H) (p p1 p2 : Pollard H)
    (L L' : List H) (V : H → Prop) (D : List ℕ) (leaves leaves' : List (Leaf H)) (m : Memo H) (h : Recorded F st p1 m) (h1 : Sync F st p)
    (hL : Ram.Represents F L) (h2 : Verifies L p V p1) (hv : Ram.Valid L (leaves.map Prod.fst) D)
    (hl : leaves'.map Prod.fst = leaves.map Prod.fst) (h3 : Deletable L V p1 D)
    (h4 : Ram.modify F leaves D = .ok (true, some u, F')) (h5 : Pol.modify p1 leaves' D = .ok (true, p2)) (hL' : Ram.Represents F' L')
    (x : H) (hx : x ∈ survivors L D) (hn : D = [] ∨ ∃ g ∈ survivors L D, beside L x = some g) (hheld : m.held x = true)
    (hread : Pol.read p1 (L.idxOf x) = .ok (some x)) (hr : PosMap.find p1.posmap x = some (L.idxOf x)) :
    Recorded F' ((u, F) :: st) p2 (m.block L D.length leaves' L') ∧ (m.block L D.length leaves' L').held x = true ∧
      Pol.read p2 (L'.idxOf x) = .ok (some x) ∧ PosMap.find p2.posmap x = some (L'.idxOf x) := by
  obtain ⟨L0, A, hI⟩ := h.inv
  obtain rfl := hL.unique hI.sync.rep
  have hnd := hI.sync.nodup
  have hlen := hI.sync.len
  have e := list_eq hI.sync.run hL hv h4 hL'
  have hrest := rest_eq hlen hv
  rw [← e] at hrest
  obtain ⟨hM, hmem⟩ := delete_nodup hnd hlen hv
  have hxM := (hmem x).2 (mem_survivors.1 hx)
  have hfin := Recorded.later h h1 hL h2 hv hl h3 h4 h5 hL'
  obtain ⟨-, b2, -⟩ := C30_record _ _ _ _ hfin L' hL'
  obtain ⟨i, hi, hiD⟩ := mem_survivors.1 hx
  have hseen : m.seen x = true := by
    rw [idx_eq hnd hi, hI.read hi] at hread
    cases hs : m.seen x with
    | true => rfl
    | false => rw [hs] at hread; simp at hread
  have hheld' : (m.block L D.length leaves' L').held x = true := by
    simp only [Memo.block]
    rw [hrest, hheld, decide_eq_true hxM]
    rfl
  have hkept : m.kept L (deleteLeaves L D) x = true := by
    rcases hn with rfl | ⟨g, hg, hb⟩
    · rw [C56_nothing L hlen]
      unfold Memo.kept
      cases beside L x <;> simp [hseen]
    · exact (kept_neighbour hnd hlen hv hx hseen hb hg).2
  refine ⟨hfin, hheld', ?_, ?_⟩
  · have hxL' : x ∈ L' := by rw [e]; simp [hxM]
    obtain ⟨j, hj⟩ := List.mem_iff_getElem?.1 hxL'
    obtain ⟨L2, A2, hI2⟩ := hfin.inv
    obtain rfl := hL'.unique hI2.sync.rep
    rw [idx_eq hI2.sync.nodup hj, b2 j x hj, if_pos]
    have hh := hheld'
    simp only [Memo.block] at hh ⊢
    rw [hrest] at hh ⊢
    split
    · exact hkept
    · cases beside L' x with
      | none => simp [hxL']
      | some g => simp [hh]
  · exact (C30_block F F' st u p p1 p2 L L' V D leaves leaves' m h h1 hL h2 hv hl h3 h4 h5 hL' x hx hr).2 (.inl (by rw [hrest]; exact hkept))

/-- C30, as far as it holds: a block that deletes a single leaf keeps every right position of a leaf that can be read right. Afterwards
some of these leaves may be unreadable, see `C30_false`. -/
theorem C30_single_partial (F F' : RamForest H) (st : List (UndoBatch H × RamForest H)) (u : UndoBatch H) (p p1 p2 : Pollard H)
    (L L' : List H) (V : H → Prop) (t : ℕ) (leaves leaves' : List (Leaf H)) (m : Memo H) (h : Recorded F st p1 m) (h1 : Sync F st p)
    (hL : Ram.Represents F L) (h2 : Verifies L p V p1) (hv : Ram.Valid L (leaves.map Prod.fst) [t])
    (hl : leaves'.map Prod.fst = leaves.map Prod.fst) (h3 : Deletable L V p1 [t])
    (h4 : Ram.modify F leaves [t] = .ok (true, some u, F')) (h5 : Pol.modify p1 leaves' [t] = .ok (true, p2)) (hL' : Ram.Represents F' L')
    (x : H) (hx : x ∈ survivors L [t]) (hread : Pol.read p1 (L.idxOf x) = .ok (some x))
    (hr : PosMap.find p1.posmap x = some (L.idxOf x)) : PosMap.find p2.posmap x = some (L'.idxOf x) := by
  obtain ⟨L0, A, hI⟩ := h.inv
  obtain rfl := hL.unique hI.sync.rep
  have hnd := hI.sync.nodup
  have hlen := hI.sync.len
  have e := list_eq hI.sync.run hL hv h4 hL'
  have hrest := rest_eq hlen hv
  rw [← e] at hrest
  obtain ⟨hM, hmem⟩ := delete_nodup hnd hlen hv
  have hxM := (hmem x).2 (mem_survivors.1 hx)
  obtain ⟨i, hi, hiD⟩ := mem_survivors.1 hx
  have hseen : m.seen x = true := by
    rw [idx_eq hnd hi, hI.read hi] at hread
    cases hs : m.seen x with
    | true => rfl
    | false => rw [hs] at hread; simp at hread
  refine (C30_block F F' st u p p1 p2 L L' V [t] leaves leaves' m h h1 hL h2 hv hl h3 h4 h5 hL' x hx hr).2 ?_
  rw [hrest]
  have hidx : L'.idxOf x = (deleteLeaves L [t]).idxOf x := by
    rw [e, List.idxOf_append_of_mem hxM]
  rw [hidx]
  exact kept_single hnd hlen hv hx hseen

/-! ## Histories -/

namespace Pol

/-- No block deletes `x`, and no block deletes anything without leaving the leaf beside `x` in place. -/
def Steady (x : H) : List H → List (Block H) → Prop
  | _, [] => True
  | L, b :: bs => x ∉ b.dels ∧ (b.dels = [] ∨ ∃ g, beside L x = some g ∧ g ∉ b.dels) ∧ Steady x (afterBlock L b) bs

/-- The leaf `x` is remembered, readable and on record with its position. -/
structure Fine (L : List H) (m : Memo H) (x : H) : Prop where
  mem : x ∈ L
  held : m.held x = true
  seen : m.seen x = true
  pos : m.pos x = some (L.idxOf x)

theorem mem_positions {L dels : List H} (hnd : L.Nodup) {i : ℕ} {x : H} (hi : L[i]? = some x) : i ∈ positions L dels ↔ x ∈ dels := by
  unfold positions
  rw [List.mem_filter, List.mem_range, hi]
  simp [(List.getElem?_eq_some_iff.1 hi).1]

/-- One block. -/
theorem Fine.block {L : List H} {m : Memo H} {x : H} (h : Fine L m x) {b : Block H} (hnd : L.Nodup) (hl : L.length ≤ 2 ^ 62)
    (hv : Ram.Valid L (b.adds.map Prod.fst) (positions L b.dels)) (h1 : x ∉ b.dels)
    (h2 : b.dels = [] ∨ ∃ g, beside L x = some g ∧ g ∉ b.dels) : Fine (memoBlock (L, m) b).1 (memoBlock (L, m) b).2 x := by
  obtain ⟨i, hi⟩ := List.mem_iff_getElem?.1 h.mem
  have hx : x ∈ survivors L (positions L b.dels) := mem_survivors.2 ⟨i, hi, by rw [mem_positions hnd hi]; exact h1⟩
  obtain ⟨hM, hmem⟩ := delete_nodup hnd hl hv
  have hxM := (hmem x).2 (mem_survivors.1 hx)
  have hrest := rest_eq hl hv
  change (afterBlock L b).take _ = _ at hrest
  have hxL' : x ∈ afterBlock L b := by unfold afterBlock; simp [hxM]
  set m' := m.verify L b.dels with hm'
  have hseen : m'.seen x = true := by simp [hm', Memo.verify, h.seen]
  have hheld : m'.held x = true := by simp [hm', Memo.verify, h.held]
  have hpos : m'.pos x = some (L.idxOf x) := by simp only [hm', Memo.verify]; rw [if_neg h1, h.pos]
  have hkept : m'.kept L (deleteLeaves L (positions L b.dels)) x = true := by
    rcases h2 with h2 | ⟨g, hg, hgd⟩
    · have : positions L b.dels = [] := by
        rw [h2]
        unfold positions
        rw [List.filter_eq_nil_iff]
        intro i _
        cases L[i]? <;> simp
      rw [this, C56_nothing L hl]
      unfold Memo.kept
      cases beside L x <;> simp [hseen]
    · have hg' := hg
      rw [beside_eq hnd hi] at hg'
      exact (kept_neighbour hnd hl hv hx hseen hg (mem_survivors.2 ⟨_, hg', by rw [mem_positions hnd hg']; exact hgd⟩)).2
  have hxa : (x, true) ∉ b.adds.map fun a => (a.1, a.2.2) := by
    intro hc
    obtain ⟨a, ha, e⟩ := List.mem_map.1 hc
    simp only [Prod.mk.injEq] at e
    exact hv.fresh x hx (List.mem_map.2 ⟨a, ha, e.1⟩)
  have hheld' : (memoBlock (L, m) b).2.held x = true := by
    simp only [memoBlock, Memo.block]
    rw [hrest, ← hm', hheld, decide_eq_true hxM]
    rfl
  refine ⟨hxL', hheld', ?_, ?_⟩
  · have hh := hheld'
    simp only [memoBlock, Memo.block] at hh ⊢
    rw [hrest] at hh ⊢
    split
    · exact hkept
    · cases beside (afterBlock L b) x with
      | none => simp [hxL']
      | some g => simp only [hh, Bool.true_or]
  · simp only [memoBlock, Memo.block]
    rw [if_neg hxa, hrest, if_pos hxM, ← hm', hpos, Option.map_some]
    unfold Memo.moved
    rw [if_pos hkept]
    have hidx : (afterBlock L b).idxOf x = (deleteLeaves L (positions L b.dels)).idxOf x := by
      unfold afterBlock
      rw [List.idxOf_append_of_mem hxM]
    rw [hidx]
    have hb2 := List.idxOf_lt_length_of_mem hxM
    have hlenM : (deleteLeaves L (positions L b.dels)).length ≤ L.length := by
      have := congrArg List.length hrest
      rw [List.length_take] at this
      omega
    have hb1 := List.idxOf_lt_length_of_mem h.mem
    congr 1
    unfold shifted
    omega

/-- A leaf that a block adds with the remember flag. -/
theorem Fine.added {L : List H} {m : Memo H} {x : H} {b : Block H} (hnd : L.Nodup) (hl : L.length ≤ 2 ^ 62)
    (hv : Ram.Valid L (b.adds.map Prod.fst) (positions L b.dels)) {f : Bool} (hx : (x, f, true) ∈ b.adds) :
    Fine (memoBlock (L, m) b).1 (memoBlock (L, m) b).2 x := by
  have hx1 : (x, true) ∈ b.adds.map fun a => (a.1, a.2.2) := List.mem_map.2 ⟨_, hx, rfl⟩
  have hx2 : x ∈ b.adds.map Prod.fst := List.mem_map.2 ⟨_, hx, rfl⟩
  obtain ⟨hM, hmem⟩ := delete_nodup hnd hl hv
  have hxM : x ∉ deleteLeaves L (positions L b.dels) := by
    intro hc
    exact hv.fresh x (mem_survivors.2 ((hmem x).1 hc)) hx2
  have hrest := rest_eq hl hv
  change (afterBlock L b).take _ = _ at hrest
  have hxL' : x ∈ afterBlock L b := by unfold afterBlock; rw [List.mem_append]; exact .inr hx2
  have hheld' : (memoBlock (L, m) b).2.held x = true := by
    simp only [memoBlock, Memo.block]
    rw [decide_eq_true hx1, Bool.or_true]
  refine ⟨hxL', hheld', ?_, ?_⟩
  · have hh := hheld'
    simp only [memoBlock, Memo.block] at hh ⊢
    rw [hrest] at hh ⊢
    have hn : beside (deleteLeaves L (positions L b.dels)) x = none := by unfold beside; rw [if_neg hxM]
    rw [hn]
    simp only [Option.isSome_none, Bool.false_eq_true, if_false]
    cases beside (afterBlock L b) x with
    | none => simp [hxL']
    | some g => simp only [hh, Bool.true_or]
  · simp only [memoBlock, Memo.block]
    rw [if_pos hx1]

/-- One of the blocks adds `x` with the remember flag, and the later ones are steady. -/
def AddedSteady (x : H) : List H → List (Block H) → Prop
  | _, [] => False
  | L, b :: bs => ((∃ f, (x, f, true) ∈ b.adds) ∧ Steady x (afterBlock L b) bs) ∨ AddedSteady x (afterBlock L b) bs

theorem play_fine (x : H) : ∀ (bs : List (Block H)) (S L : List H) (m : Memo H) (F : RamForest H)
    (st : List (UndoBatch H × RamForest H)) (p : Pollard H), Recorded F st p m → Ram.Represents F L → L.Perm S → ValidBlocks S bs →
    (Fine L m x ∧ Steady x L bs) ∨ AddedSteady x L bs →
    Fine (bs.foldl memoBlock (L, m)).1 (bs.foldl memoBlock (L, m)).2 x := by
  intro bs
  induction bs with
  | nil =>
    intro S L m F st p _ _ _ _ h
    rcases h with h | h
    · exact h.1
    · exact absurd h id
  | cons b bs ih =>
    intro S L m F st p h hL hS hvb hf
    obtain ⟨h1, h2, h3, h4, h5, h6, h7⟩ := hvb
    obtain ⟨F1, u1, p1, L1, e1, -, e3, e4, proof, hs, q, ha⟩ := play_step h.held.sync hL hS h1 h2 h3 h4 h5 h6
    obtain ⟨F2, st2, p2, g1, g2, g3⟩ := play_memo [b] S L m F st p h hL hS ⟨h1, h2, h3, h4, h5, h6, trivial⟩
    rw [play, e1, ok_bind] at g1
    obtain ⟨rfl, rfl⟩ : F1 = F2 ∧ p1 = p2 := by
      have := Except.ok.inj g1
      simpa using this
    obtain ⟨L0, A, hI⟩ := h.inv
    obtain rfl := hL.unique hI.sync.rep
    have hv := ha.valid
    rw [ha.sorted_eq hI.sync.nodup] at hv
    have hA : ((b.adds.map fun a => (a.1, a.2.1)).map Prod.fst) = b.adds.map Prod.fst := by rw [List.map_map]; rfl
    rw [hA] at hv
    have e5 : L1 = afterBlock L b := e3.unique g3
    rw [e5] at e4
    refine ih _ (memoBlock (L, m) b).1 (memoBlock (L, m) b).2 _ _ _ g2 g3 e4 h7 ?_
    rcases hf with ⟨hf, s1, s2, s3⟩ | ⟨⟨f, hx⟩, s⟩ | hf
    · exact .inl ⟨hf.block hI.sync.nodup hI.sync.len hv s1 s2, s3⟩
    · exact .inl ⟨Fine.added hI.sync.nodup hI.sync.len hv hx, s⟩
    · exact .inr hf

end Pol

/-- C30 over histories, as far as it holds: leaves that were added with the remember flag are provable, with the forest's proof, as
long as no later block deletes them, and every later block that deletes anything finds a leaf beside them and leaves it in place. What is
deleted elsewhere and which other leaves are remembered does not matter. -/
theorem C30_steady_partial (bs : List (Block H)) (hv : ValidBlocks [] bs) (q : List H) (hnd : q.Nodup)
    (hq : ∀ x ∈ q, AddedSteady x [] bs) :
    ∃ F p, play bs (Ram.mk 0) (Pol.mk 0) = .ok (F, p) ∧
      ∃ proof, Acc.prove Ram.vt F q = .ok (some proof) ∧ Acc.prove Pol.vt p q = .ok (some proof) := by
  have h0 : Ram.Represents (Ram.mk 0 : RamForest H) [] := Ram.mk_inv.represents (f := leafFn HashOps.zero []) (by omega)
  obtain ⟨F, p, e1, e2⟩ := C30_history bs hv
  have hf := fun x (hx : x ∈ q) => play_fine x bs [] [] Memo.empty _ _ _ Recorded.empty h0 (List.Perm.refl _) hv (.inr (hq x hx))
  obtain ⟨proof, k1, k2⟩ := e2 q hnd fun x hx => (hf x hx).held
  exact ⟨F, p, e1, proof, k1, k2.2 fun x hx => (hf x hx).pos⟩

/-! ## The test `simple_posmap_updates` -/

section Any
variable [HashOps Hash32]
open Suite Bench
attribute [-instance] Subtype.instBEq

theorem Suite.Start.recorded {n : ℕ} {rem : List ℕ} {u : UndoBatch Hash32} {F : RamForest Hash32} {p : Pollard Hash32}
    (h : Start n rem u F p) (hn : n < 2 ^ 31) : Recorded F [(u, Ram.mk 0)] p (Memo.block Memo.empty [] 0 (leavesOf n rem) (hashesOf n)) := by
  have h0 : Ram.Represents (Ram.mk 0 : RamForest Hash32) [] := Ram.mk_inv.represents (f := leafFn HashOps.zero []) (by omega)
  have hv : Ram.Valid ([] : List Hash32) ((leavesOf n rem).map Prod.fst) [] := by
    rw [leavesOf_fst]
    refine ⟨List.Pairwise.nil, by simp, hashesOf_nodup (by omega), by simp [survivors], by simp, ?_⟩
    rw [hashesOf_length]
    simp only [List.length_nil]
    omega
  exact Recorded.later Recorded.empty Sync.empty h0 Verifies.none hv rfl (.inl (by simp)) h.made h.grown h.rep

/-- C79: the test `simple_posmap_updates` passes for every number of leaves, every set of remembered leaves and every leaf of the set
that is deleted, except that the number of nodes is the one the test expects only if it expects the right one. -/
theorem C79_posmap (n : ℕ) (hn : n < 2 ^ 31) (rem : List ℕ) (hnd : rem.Nodup) (hr : ∀ i ∈ rem, i < n) (t : ℕ) (ht : t ∈ rem) (nodes : ℕ) :
    ∃ F p, setup n rem = .ok (leavesOf n rem, true, true, F, p) ∧
      simplePosmapUpdates n rem nodes t = .ok [true, true, countNodes p == nodes, true, true, true, true, true, true, true] := by
  obtain ⟨u, F, p, k1, k2⟩ := setup_ok hn hr
  have htn := hr t ht
  have hb : ∀ i ∈ [t], i < n := by simpa using htn
  obtain ⟨proof, p1, a1, a2, a3, a4, a5, a6⟩ := k2.prove hn (D := [t]) (by simp) hb
  have hR := k2.recorded hn
  set m0 := Memo.block Memo.empty [] 0 (leavesOf n rem) (hashesOf n) with hm0
  have hL := hashesOf_nodup (n := n) (by omega)
  have hget : ∀ i, i < n → (hashesOf n)[i]? = some (setHash i) := fun i hi => hashesOf_get hi
  have hmemR : ∀ i ∈ rem, (setHash i, true) ∈ leavesOf n rem := by
    intro i hi
    unfold leavesOf
    exact List.mem_map.2 ⟨i, List.mem_range.2 (hr i hi), by simp [hi]⟩
  have hpos0 : ∀ x j, m0.pos x = some j → (∃ i ∈ rem, x = setHash i) ∧ j = (hashesOf n).idxOf x := by
    intro x j hx
    simp only [hm0, Memo.block] at hx
    split at hx
    · rename_i hc
      unfold leavesOf at hc
      obtain ⟨i, hi, e⟩ := List.mem_map.1 hc
      simp only [Prod.mk.injEq, decide_eq_true_eq] at e
      exact ⟨⟨i, e.2, e.1.symm⟩, (Option.some.inj hx).symm⟩
    · simp at hx
  have hseen0 : ∀ i ∈ rem, m0.seen (setHash i) = true := by
    intro i hi
    simp only [hm0, Memo.block]
    have : beside ((hashesOf n).take (([] : List Hash32).length - 0)) (setHash i) = none := by
      unfold beside
      simp
    rw [this]
    simp only [Option.isSome_none, Bool.false_eq_true, if_false]
    cases beside (hashesOf n) (setHash i) with
    | none => simpa using List.mem_of_getElem? (hget i (hr i hi))
    | some g => simp [hmemR i hi]
  have hpos1 : ∀ i ∈ rem, m0.pos (setHash i) = some ((hashesOf n).idxOf (setHash i)) := by
    intro i hi
    simp only [hm0, Memo.block]
    rw [if_pos (hmemR i hi)]
  have hheld0 : ∀ i ∈ rem, m0.held (setHash i) = true := by
    intro i hi
    simp only [hm0, Memo.block]
    simp [hmemR i hi]
  obtain ⟨c1, c2, -⟩ := C30_record F _ p m0 hR _ k2.rep
  -- the comparisons and the proof before the deletion
  obtain ⟨b, b1, b2⟩ := C49_pollard_partial F _ p k2.held.sync _ k2.rep
  have hbt : b = true := b2.2 (by
    intro x i hx
    rw [c1] at hx
    obtain ⟨⟨j, hj, rfl⟩, rfl⟩ := hpos0 x i hx
    rw [idx_eq hL (hget j (hr j hj))]
    exact hget j (hr j hj))
  obtain ⟨proof', d1, d2⟩ := C30_exact F _ p m0 hR _ k2.rep [setHash t] (by simp) (by simpa using hheld0 t ht)
  have a1' : Acc.prove Ram.vt F [setHash t] = .ok (some proof) := a1
  rw [a1'] at d1
  obtain rfl : proof = proof' := by simpa using d1
  have d3 := d2.2 (by simpa using hpos1 t ht)
  have hcount : numCachedLeaves p = rem.length := by
    rw [C42_held F _ p _ k2.held (rem.map setHash) (hnd.map_on (fun i hi j hj e => by
      have := idx_eq hL (hget i (hr i hi))
      rw [e, idx_eq hL (hget j (hr j hj))] at this
      exact this.symm)) (fun x => by
        rw [List.mem_map]
        exact ⟨fun ⟨i, hi, e⟩ => ⟨i, hi, e.symm⟩, fun ⟨i, hi, e⟩ => ⟨i, hi, e.symm⟩⟩), List.length_map]
  -- the deletion
  have a3' : Pol.verify p proof [setHash t] = .ok (true, p1) := a3
  have hR1 := Recorded.verify hR k2.rep a3' a6
  obtain ⟨L0, A, hI⟩ := hR.inv
  obtain rfl := k2.rep.unique hI.sync.rep
  obtain ⟨f1, f2, -⟩ := hI.sync.deletable (by rw [a5, a2]; simp) a3' a6
  have hv := valid_del hn (D := [t]) (by simp) hb
  obtain ⟨p1', u', F', p2, L', g1, g2, g3, g4, g5, g6⟩ := C23_apply F _ p k2.held.sync _ k2.rep _ proof a1 ([] : List (Leaf Hash32)) [] rfl
    (by rw [a2]; exact hv) ([t].map setHash) (by rw [a2]; exact at_hashes hb)
  rw [a3] at g1
  obtain rfl : p1 = p1' := by simpa using g1
  rw [a2] at g2 g3 g6 f2
  obtain ⟨b', i1, i2⟩ := C49_pollard_partial F' _ p2 g4 L' g5
  have hR2 := Recorded.later hR1 k2.held.sync k2.rep f1 hv rfl f2 g2 g3 g5
  obtain ⟨j1, -, -⟩ := C30_record F' _ p2 _ hR2 L' g5
  obtain ⟨l1, l2, -⟩ := C30_record F _ p1 _ hR1 _ k2.rep
  have hbt' : b' = true := i2.2 (by
    intro x i hx
    have hx' := hx
    rw [j1] at hx
    have hL' := take_modified (by rw [hashesOf_length]; omega) hv g6
    simp only [Memo.block] at hx
    rw [if_neg (by simp)] at hx
    split at hx
    · rename_i hxM
      have hxs := hL'.1.mem_iff.1 hxM
      obtain ⟨k, q1, q2⟩ := mem_survivors.1 hxs
      have hk : k < n := by
        have := (List.getElem?_eq_some_iff.1 q1).1
        rwa [hashesOf_length] at this
      have hxk : x = setHash k := by
        rw [hget k hk] at q1
        exact (Option.some.inj q1).symm
      simp only [List.mem_singleton] at q2
      have hne : setHash k ≠ setHash t := by
        intro e
        have := idx_eq hL (hget k hk)
        rw [e, idx_eq hL (hget t htn)] at this
        exact q2 this.symm
      subst hxk
      have hm1 : (m0.verify (hashesOf n) [setHash t]).pos (setHash k) = m0.pos (setHash k) := by
        simp only [Memo.verify]
        rw [if_neg (by simpa using hne)]
      rw [hm1] at hx
      cases hp0 : m0.pos (setHash k) with
      | none => rw [hp0] at hx; simp at hx
      | some j =>
        obtain ⟨⟨k', hk', e⟩, rfl⟩ := hpos0 _ _ hp0
        have hs1 : (m0.verify (hashesOf n) [setHash t]).seen (setHash k) = true := by
          simp only [Memo.verify]
          rw [e, hseen0 k' hk']
          simp
        have hread : Pol.read p1 ((hashesOf n).idxOf (setHash k)) = .ok (some (setHash k)) := by
          rw [idx_eq hL (hget k hk), l2 k _ (hget k hk), if_pos hs1]
        have := C30_single_partial F F' _ u' p p1 p2 _ L' _ t [] [] _ hR1 k2.held.sync k2.rep f1 hv rfl f2 g2 g3 g5 (setHash k) hxs hread
          (by rw [l1, hm1, hp0])
        rw [this] at hx'
        obtain rfl := Option.some.inj hx'
        have hmem : setHash k ∈ L' := List.mem_of_mem_take hxM
        exact get_idx hmem
    · simp at hx)
  refine ⟨F, p, k1, ?_⟩
  unfold simplePosmapUpdates
  rw [k1, ok_bind]
  dsimp only
  rw [b1, ok_bind, hashesAt_ok _ _ hb, ok_bind]
  simp only [List.map_cons, List.map_nil]
  rw [d3, ok_bind]
  simp only [Bench.proofOf, Option.getD_some]
  rw [a3', ok_bind]
  dsimp only
  rw [g3, ok_bind]
  dsimp only
  rw [g2, ok_bind]
  dsimp only
  rw [i1, ok_bind, hbt, hbt', hcount]
  simp

end Any

/-! ## Concrete cases -/

section Examples

attribute [local instance] toyOps

/-- Leaf 13 is remembered and stays beside leaf 14; the other leaves around it go, and it moves from position 2 to position 0. -/
def steadyBlocks : List (Block ℕ) :=
  [{ adds := [(11, false, false), (12, false, false), (13, false, true), (14, false, false), (15, false, false), (16, false, true)], dels := [] },
   { adds := [], dels := [11, 12, 15] }, { adds := [(17, false, false), (18, false, true)], dels := [16] }]

example : ValidBlocks [] steadyBlocks := by
  refine ⟨by decide, by decide, by decide, by decide, by decide, by decide,
    by decide, by decide, by decide, by decide, by decide, by decide,
    by decide, by decide, by decide, by decide, by decide, by decide, trivial⟩

/-- The hypotheses of `C30_steady_partial` are met for leaf 13 and leaf 18, and not for leaf 16. -/
example : ∀ x ∈ [13, 18], AddedSteady x [] steadyBlocks := by
  intro x hx
  simp only [List.mem_cons, List.not_mem_nil, or_false] at hx
  rcases hx with rfl | rfl
  · exact .inl ⟨⟨false, by decide⟩, by decide, .inr ⟨14, by decide +kernel, by decide⟩, by decide, .inr ⟨14, by decide +kernel, by decide⟩, trivial⟩
  · exact .inr (.inr (.inl ⟨⟨false, by decide⟩, trivial⟩))

example : toyAfter steadyBlocks (fun F p => do
      return ((← Ram.readLeafRange F 0 4), (← Acc.prove Ram.vt F [13, 18]), (← Acc.prove Pol.vt p [13, 18]))) =
    .ok ([13, 14, 17, 18], some { targets := [0, 3], sorted := [0, 3], hashes := [14, 17] },
      some { targets := [0, 3], sorted := [0, 3], hashes := [14, 17] }) := by
  decide +kernel

end Examples

section Examples32
open Suite
attribute [local instance] toyOps32

/-- The hypotheses of `C79_posmap`, and with it those of `C30_single_partial`, are met for the values of the test. -/
example : simplePosmapUpdates 16 [0, 7] 10 0 = .ok (List.replicate 10 true) := by decide +kernel

end Examples32

end Utreexo
