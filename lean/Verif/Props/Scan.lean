import Verif.Proof.ScanCount
import Verif.Props.Later

/-!
# C76: the leaf positions that a block makes an accumulator look up

`Pol.modifyS` and `Ram.modifyS` are `Modify` with the number of leaf positions that `ReadLeafRange` and `FinalizeRemove` look up
(`Verif/Model/Scan.lean`).
-/

set_option linter.unusedSectionVars false

namespace Utreexo
open Spec Pol

/-- The smallest tree of a forest with `n` leaves has `2 ^ z` leaves. -/
def Smallest (n z : ℕ) : Prop := 2 ^ z ∣ n ∧ ¬ 2 ^ (z + 1) ∣ n

theorem Smallest.bits {n z : ℕ} (h : Smallest n z) : (∀ q, q < z → n.testBit q = false) ∧ n.testBit z = true := by
  obtain ⟨⟨k, rfl⟩, h2⟩ := h
  have hk : k % 2 = 1 := by
    by_contra hc
    obtain ⟨j, rfl⟩ : ∃ j, k = 2 * j := ⟨k / 2, by omega⟩
    exact h2 ⟨j, by rw [pow_succ]; ring⟩
  refine ⟨fun q hq => ?_, ?_⟩
  · rw [Nat.testBit_two_pow_mul]
    simp [hq]
  · rw [Nat.testBit_two_pow_mul]
    simp [hk]

/-- Leaf positions looked up for the deletion of leaf `t`: twice the leaves behind it in a tree of `2 ^ z` leaves, all leaves of the
smallest tree twice unless it is the leaf's own tree, and the leaf. -/
def lookupsOne (n z t : ℕ) : ℕ := 1 + 2 * (2 ^ z - 1 - t % 2 ^ z) + if t + 2 ^ z < n then 2 * 2 ^ z else 0

section Claims
variable {H : Type} [DecidableEq H] [HashOps H]

/-- C76: counting does not change what a pollard does. -/
theorem C76_pollard_same (p : Pollard H) (leaves : List (Leaf H)) (D : List ℕ) (hn : p.numLeaves ≤ 2 ^ 62) :
    (Pol.modifyS p leaves D).map Prod.fst = Pol.modify p leaves D := by
  have h := Pol.modify_scan p leaves D hn
  revert h
  generalize Pol.modifyS p leaves D = x
  generalize Pol.modify p leaves D = y
  intro h
  cases h with
  | error e => rfl
  | ok h => obtain ⟨c, rfl, -⟩ := h; rfl

/-- C76: counting does not change what a forest does. -/
theorem C76_forest_same (F : RamForest H) (leaves : List (Leaf H)) (D : List ℕ) (hn : F.numLeaves ≤ 2 ^ 62) :
    (Ram.modifyS F leaves D).map Prod.fst = Ram.modify F leaves D := by
  have h := Ram.modify_scan F leaves D hn
  revert h
  generalize Ram.modifyS F leaves D = x
  generalize Ram.modify F leaves D = y
  intro h
  cases h with
  | error e => rfl
  | ok h => obtain ⟨c, rfl, -⟩ := h; rfl

theorem removeScan_eq {n : ℕ} (hn : n ≤ 2 ^ 62) {D : List ℕ} (hs : D.Pairwise (· < ·)) (hb : ∀ i ∈ D, i < n) :
    Acc.removeScan n true D = planScan n D (St.numRows n) + D.length := by
  unfold Acc.removeScan
  rw [if_pos rfl, transform_eq hn hs hb]
  exact congrArg (· + D.length) (transform_scan hn hs hb (transform_eq hn hs hb))

theorem removeScan_le {n : ℕ} (hn : n ≤ 2 ^ 62) {D : List ℕ} (hs : D.Pairwise (· < ·)) (hb : ∀ i ∈ D, i < n) (full : Bool) {R : ℕ}
    (hR : n ≤ 2 ^ R) : Acc.removeScan n full D ≤ D.length * (R + 2) + 3 * (2 ^ R - 1) := by
  have h1 : D.length * (R + 2) = D.length * (R + 1) + D.length := by ring
  cases full with
  | false => 
    show D.length ≤ _
    rw [h1]
    omega
  | true =>
    rw [removeScan_eq hn hs hb]
    have h2 := planScan_le hs hb (St.numRows n)
    have h3 : St.numRows n ≤ R := (numRows_le_iff (by omega) R).2 hR
    have h4 := Nat.mul_le_mul_left D.length (Nat.add_le_add_right h3 1)
    have h5 : 2 ^ St.numRows n ≤ 2 ^ R := Nat.pow_le_pow_right (by omega) h3
    omega

theorem removeScan_single {n t z : ℕ} (hn : n ≤ 2 ^ 62) (ht : t < n) (hz : Smallest n z) :
    Acc.removeScan n true [t] = lookupsOne n z t := by
  rw [removeScan_eq hn (by simp) (by simpa using ht), planScan_single ht hz.bits.1 hz.bits.2 (le_two_pow_numRows (by omega))]
  unfold lookupsOne
  simp only [List.length_singleton]
  omega

/-- C76: a pollard that refuses a block has looked up nothing. -/
theorem C76_refused (p p' : Pollard H) (leaves : List (Leaf H)) (D : List ℕ) (hn : p.numLeaves ≤ 2 ^ 62)
    (h : Pol.modify p leaves D = .ok (false, p')) : Pol.modifyS p leaves D = .ok ((false, p'), 0) := by
  obtain ⟨a, h1, c, rfl, h2, -⟩ := (Pol.modify_scan p leaves D hn).left h
  rw [h1, h2 (.inl rfl)]

/-- C76: whatever the block, a pollard with `n ≤ 2 ^ R` leaves looks up at most `k * (R + 2) + 3 * (2 ^ R - 1)` positions for `k`
deletions. -/
theorem C76_bound (p p' : Pollard H) (leaves : List (Leaf H)) (D : List ℕ) (hn : p.numLeaves ≤ 2 ^ 62)
    (h : Pol.modify p leaves D = .ok (true, p')) :
    ∃ c, Pol.modifyS p leaves D = .ok ((true, p'), c) ∧ ∀ R, p.numLeaves ≤ 2 ^ R → c ≤ D.length * (R + 2) + 3 * (2 ^ R - 1) := by
  obtain ⟨a, h1, c, rfl, -, h2⟩ := (Pol.modify_scan p leaves D hn).left h
  refine ⟨c, h1, fun R hR => ?_⟩
  obtain ⟨⟨hs, hb⟩, rfl⟩ := h2 rfl
  split
  · omega
  · exact removeScan_le hn hs hb _ hR

/-- C76, as far as it holds: a pollard whose position map is empty looks up the deleted leaves only, and a block without deletions looks
up nothing. Missing: deletions by a pollard that has a leaf in its position map, for which the claim is false (`C76_false`). -/
theorem C76_partial (p p' : Pollard H) (leaves : List (Leaf H)) (D : List ℕ) (hn : p.numLeaves ≤ 2 ^ 62)
    (hD : D = [] ∨ ∀ x, PosMap.find p.posmap x = none) (h : Pol.modify p leaves D = .ok (true, p')) :
    Pol.modifyS p leaves D = .ok ((true, p'), D.length) := by
  obtain ⟨a, h1, c, rfl, h3, h2⟩ := (Pol.modify_scan p leaves D hn).left h
  rw [h1]
  rcases hD with rfl | hD
  · rw [h3 (.inr rfl)]; rfl
  · have hm : p.posmap.length = 0 := by
      cases e : p.posmap with
      | nil => rfl
      | cons a m =>
        exfalso
        have := hD a.1
        rw [e, PosMap.find] at this
        simp at this
    rw [(h2 rfl).2]
    split
    · rename_i h0; rw [h0]; rfl
    · rw [hm]; rfl

/-- C76, as far as it holds: that is so for every pollard with a history in which no unspent leaf is one that it was to remember or has
verified. -/
theorem C76_forgetful_partial (F : RamForest H) (st : List (UndoBatch H × RamForest H)) (p p' : Pollard H) (R : H → Prop)
    (ht : Track F st p (fun _ => False) R) (leaves : List (Leaf H)) (D : List ℕ) (h : Pol.modify p leaves D = .ok (true, p')) :
    Pol.modifyS p leaves D = .ok ((true, p'), D.length) := by
  obtain ⟨L, A, hI⟩ := ht.inv
  refine C76_partial p p' leaves D ?_ (.inr fun x => ?_) h
  · rw [hI.sync.inv.ph.num]; exact hI.sync.len
  · have := hI.dom x
    cases e : PosMap.find p.posmap x with
    | none => rfl
    | some i => rw [e] at this; exact absurd (this.1 rfl) id

/-- C76: exactly which positions a pollard that has a leaf in its position map looks up: those of the deleted leaves and all positions
below the two ends of each swap of `Transform`. -/
theorem C76_exact (p p' : Pollard H) (leaves : List (Leaf H)) (D : List ℕ) (hn : p.numLeaves ≤ 2 ^ 62)
    (x : H) (hx : PosMap.find p.posmap x ≠ none) (h : Pol.modify p leaves D = .ok (true, p')) :
    ∃ sws, St.transform p.numLeaves D = .ok sws ∧ ∀ row : St.Swap → ℕ,
      (∀ sw ∈ sws.flatten, St.detectRow p.numLeaves sw.src = .ok (row sw)) →
      Pol.modifyS p leaves D = .ok ((true, p'), D.length + (sws.flatten.map fun sw => 2 * 2 ^ row sw).sum) := by
  obtain ⟨a, h1, c, rfl, -, h2⟩ := (Pol.modify_scan p leaves D hn).left h
  obtain ⟨⟨hs, hb⟩, e⟩ := h2 rfl
  have hm : (p.posmap.length != 0) = true := by
    cases e : p.posmap with
    | nil => rw [e] at hx; exact absurd rfl hx
    | cons a m => rfl
  have ht := transform_eq hn hs hb
  refine ⟨_, ht, fun row hrow => ?_⟩
  rw [h1, e, hm]
  have key : ∀ sws : List (List St.Swap), (∀ sw ∈ sws.flatten, St.detectRow p.numLeaves sw.src = .ok (row sw)) →
      Acc.rowSum (rowScan p.numLeaves) sws = (sws.flatten.map fun sw => 2 * 2 ^ row sw).sum := by
    intro sws
    induction sws with
    | nil => intro _; rfl
    | cons ws sws ih =>
      intro hr
      rw [List.flatten_cons, List.map_append, List.sum_append, ← ih fun sw hsw => hr sw (by simp_all)]
      unfold Acc.rowSum
      rw [List.map_cons, List.sum_cons]
      congr 1
      unfold rowScan
      congr 1
      refine List.map_congr_left fun sw hsw => ?_
      unfold swapScan
      rw [hr sw (List.mem_flatten.2 ⟨ws, by simp, hsw⟩)]
  rw [← key _ hrow]
  split
  · rename_i h0
    subst h0
    have h3 := transform_scan hn hs hb ht
    have h4 : planScan p.numLeaves [] (St.numRows p.numLeaves) = 0 := by
      unfold planScan
      refine Finset.sum_eq_zero fun c hc => ?_
      rw [Finset.mem_range] at hc
      rw [nil_opsAt (rowInv hs hb (by simp)) (le_two_pow_numRows (by omega)) hc
        (Dn_nil_mono (rowInv hs hb (n' := p.numLeaves) (by simp)) (r := 0) rfl c (by omega))]
      simp
    rw [h3, h4]
    rfl
  · unfold Acc.removeScan
    rw [ht, if_pos rfl, Nat.add_comm]

/-- C76: exactly how many positions a pollard that has a leaf in its position map looks up for the deletion of one leaf. -/
theorem C76_single (p p' : Pollard H) (leaves : List (Leaf H)) (t z : ℕ) (hn : p.numLeaves ≤ 2 ^ 62) (hz : Smallest p.numLeaves z)
    (x : H) (hx : PosMap.find p.posmap x ≠ none) (h : Pol.modify p leaves [t] = .ok (true, p')) :
    Pol.modifyS p leaves [t] = .ok ((true, p'), lookupsOne p.numLeaves z t) := by
  obtain ⟨a, h1, c, rfl, -, h2⟩ := (Pol.modify_scan p leaves [t] hn).left h
  obtain ⟨⟨-, hb⟩, e⟩ := h2 rfl
  have hm : (p.posmap.length != 0) = true := by
    cases e : p.posmap with
    | nil => rw [e] at hx; exact absurd rfl hx
    | cons a m => rfl
  rw [h1, e, if_neg (by simp), hm, removeScan_single hn (hb t (by simp)) hz]

/-- C76: a forest looks up that many positions for every deletion of one leaf. -/
theorem C76_forest (F : RamForest H) (st : List (UndoBatch H × RamForest H)) (hF : Ram.Run F st) (L : List H) (hL : Ram.Represents F L)
    (leaves : List (Leaf H)) (t z : ℕ) (hv : Ram.Valid L (leaves.map Prod.fst) [t]) (hz : Smallest L.length z) :
    ∃ u F', Ram.modify F leaves [t] = .ok (true, some u, F') ∧
      Ram.modifyS F leaves [t] = .ok ((true, some u, F'), lookupsOne L.length z t) := by
  obtain ⟨u, F', L', h, -⟩ := C18_modify F st hF L hL leaves [t] hv
  obtain ⟨L0, hL0, -, hlen⟩ := C16_represents F st hF
  obtain rfl := hL.unique hL0
  have hnum : F.numLeaves = L.length := hL.count
  obtain ⟨a, h1, c, rfl, -, h2⟩ := (Ram.modify_scan F leaves [t] (by omega)).left h
  obtain ⟨⟨-, hb⟩, e⟩ := h2 rfl
  have ht := hb t (by simp)
  have hm : (F.posmap.length != 0) = true := by
    have hx := (hL.find (L[t]'(by omega)) t).2 (by simp)
    cases e : F.posmap with
    | nil => rw [e] at hx; simp [PosMap.find] at hx
    | cons a m => rfl
  refine ⟨u, F', h, ?_⟩
  rw [h1, e, if_neg (by simp), hm, removeScan_single (by omega) ht (hnum ▸ hz), hnum]

/-- The claim: a pollard looks up at most `C` positions for each deletion and each row of the forest. -/
def FewLookups (H : Type) [DecidableEq H] [HashOps H] (C : ℕ) : Prop :=
  ∀ (F : RamForest H) (st : List (UndoBatch H × RamForest H)) (p p' : Pollard H) (leaves : List (Leaf H)) (D : List ℕ) (c : ℕ),
    Sync F st p → Pol.modifyS p leaves D = .ok ((true, p'), c) → c ≤ C * D.length * (Nat.log2 p.numLeaves + 1)

/-- C76: a pollard that remembers `2 ^ R` leaves looks up every position almost twice when the first leaf is deleted. -/
theorem C76_first (L : List H) (R : ℕ) (hR : R ≤ 31) (hL : L.length = 2 ^ R) (hnd : L.Nodup) :
    ∃ F st p p', Sync F st p ∧ Ram.Represents F L ∧ Pol.modifyS p [] [0] = .ok ((true, p'), 2 ^ (R + 1) - 1) := by
  have hpos := Nat.two_pow_pos R
  have h31 : 2 ^ R ≤ 2 ^ 31 := Nat.pow_le_pow_right (by omega) hR
  have hv : Ram.Valid ([] : List H) ((L.map fun x => (x, true)).map Prod.fst) [] := by
    rw [List.map_map]
    have e : (L.map ((Prod.fst : Leaf H → H) ∘ fun x => (x, true))) = L := by
      rw [show ((Prod.fst : Leaf H → H) ∘ fun x => (x, true)) = id from rfl, List.map_id]
    rw [e]
    exact ⟨by simp, by simp, hnd, by simp [survivors], by simp, by simp [hL]; omega⟩
  have hE : Ram.Represents (Ram.mk 0 : RamForest H) [] := Ram.mk_inv.represents (f := leafFn HashOps.zero []) (by omega)
  obtain ⟨-, -, -, hb⟩ := C52_archive _ _ _ (Archive.empty (H := H))
  obtain ⟨u, F, p, h1, h2, hA⟩ := hb [] (L.map fun x => (x, true)) [] hE hv
  obtain ⟨u', F0, g1, -, g3⟩ := C17_add (Ram.mk 0 : RamForest H) [] .empty [] hE _ hv
  rw [h1] at g1
  obtain ⟨-, rfl⟩ : u = u' ∧ F = F0 := by simpa using g1
  have hrep : Ram.Represents F L := by
    rw [List.nil_append, List.map_map, show ((Prod.fst : Leaf H → H) ∘ fun x => (x, true)) = id from rfl, List.map_id] at g3
    exact g3
  obtain ⟨L0, q1, -, hh⟩ := hA.held
  obtain rfl := hrep.unique q1
  obtain ⟨-, hnum, -, hb2⟩ := C52_archive _ _ _ hA
  obtain ⟨u2, F2, p2, k1, k2, -⟩ := hb2 L [] [0] hrep ⟨by simp, by simp [hL], by simp, by simp, fun _ => by omega, by simp; omega⟩
  rw [hrep.count, hL] at hnum
  refine ⟨F, _, p, p2, hh.sync, hrep, ?_⟩
  have hs : Smallest p.numLeaves R := by
    rw [hnum]
    refine ⟨Nat.dvd_refl _, fun hc => ?_⟩
    have := Nat.le_of_dvd hpos hc
    rw [pow_succ] at this
    omega
  have hx : PosMap.find p.posmap (L[0]'(by omega)) ≠ none := by
    have ht := Track.later Track.empty Sync.empty hE .none hv (by rw [List.map_map]; rfl) (.inl (by simp)) h1 h2 hrep
    obtain ⟨L1, A, hI⟩ := ht.inv
    have := (hI.dom (L[0]'(by omega))).2 (.inr (by simp))
    intro hc
    rw [hc] at this
    cases this
  have := C76_single p p2 [] 0 R (by omega) hs _ hx k2
  rw [List.map_nil] at *
  rw [this, hnum]
  unfold lookupsOne
  rw [if_neg (by omega), Nat.zero_mod, pow_succ]
  congr 2
  omega

/-- C76 is false, even with more than thirty million positions for each deletion and each row. -/
theorem C76_false (L : List H) (hL : L.length = 2 ^ 31) (hnd : L.Nodup) (C : ℕ) (hC : C ≤ 2 ^ 25) : ¬ FewLookups H C := by
  intro hf
  obtain ⟨F, st, p, p', hs, hrep, h⟩ := C76_first L 31 le_rfl hL hnd
  have h1 := hf F st p p' [] [0] _ hs h
  obtain ⟨L0, A, hI⟩ := hs.inv
  obtain rfl := hrep.unique hI.rep
  rw [hI.inv.ph.num, hL, Nat.log2_two_pow, List.length_singleton] at h1
  omega

end Claims

/-! ## Concrete cases -/

section Examples
attribute [local instance] toyOps

/-- There are enough leaves for `C76_false`. -/
example : ∃ L : List ℕ, L.length = 2 ^ 31 ∧ L.Nodup := ⟨List.range (2 ^ 31), List.length_range, List.nodup_range⟩

/-- `1 + 2 * 7` positions for the first of eight leaves, one for the last; for a leaf outside the smallest tree, both ranges of that
tree. -/
example : Smallest 8 3 ∧ lookupsOne 8 3 0 = 15 ∧ lookupsOne 8 3 7 = 1 ∧ Smallest 12 2 ∧ lookupsOne 12 2 5 = 13 ∧ lookupsOne 12 2 9 = 5 := by
  unfold Smallest; decide

/-- The leaf positions looked up when the `i`-th of `n` leaves is deleted by a pollard that has verified it and remembers the leaves `l`,
and by the forest. -/
def scanOf (n : ℕ) (l : List ℕ) (i : ℕ) : Res (List ℕ) :=
  toyAfter [rememberSome n l] fun F p => do
    match ← verifyEach F [[11 + i]] p with
    | none => .error .exc
    | some q =>
      let (a, c) ← Pol.modifyS q [] [i]
      let (b, d) ← Ram.modifyS F [] [i]
      return [a.1.toNat, c, b.1.toNat, d]

/-- The light client remembers only the leaf that is deleted, and looks up as many positions as the forest: these are the numbers of
`C76_single` and `C76_forest`. -/
example : scanOf 8 [] 0 = .ok [1, 15, 1, 15] ∧ scanOf 8 [] 7 = .ok [1, 1, 1, 1] ∧ scanOf 12 [3] 5 = .ok [1, 13, 1, 13] ∧
    scanOf 12 [] 9 = .ok [1, 5, 1, 5] := by decide +kernel

/-- With an empty position map (`C76_partial`) one position is looked up for the deletion of the first of sixteen leaves, with the
verified leaf in it 31. -/
example : toyAfter [rememberSome 16 []] (fun F p => do
      match ← verifyEach F [[11]] p with
      | none => .error .exc
      | some q =>
        let (a, c) ← Pol.modifyS { q with posmap := [] } [] [0]
        let (b, d) ← Pol.modifyS q [] [0]
        return [a.1.toNat, c, b.1.toNat, d]) = .ok [1, 1, 1, 31] := by decide +kernel

/-- `C76_forgetful_partial`: a pollard that remembers nothing deletes the fifth leaf, which is a root. -/
example : toyAfter [rememberSome 5 []] (fun _ p => do
      let (a, c) ← Pol.modifyS p [] [4]
      return [a.1.toNat, c]) = .ok [1, 1] := by decide +kernel

/-- The bound of `C76_bound` for three deletions from sixteen leaves, with the number of positions looked up. -/
example : toyAfter [rememberSome 16 [0, 5, 6]] (fun F p => do
      match ← verifyEach F [[11, 16, 17]] p with
      | none => .error .exc
      | some q =>
        let (a, c) ← Pol.modifyS q [] [0, 5, 6]
        return [a.1.toNat, c, 3 * (4 + 2) + 3 * (2 ^ 4 - 1)]) = .ok [1, 23, 63] := by decide +kernel

end Examples
end Utreexo
