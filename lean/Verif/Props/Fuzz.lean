import Verif.Model.Fuzz
import Verif.Proof.Total
import Verif.Props.Bind
import Verif.Props.Wire

/-!
# The fuzz targets and arbitrary targets

C54 (no input makes the fuzz targets `batchproof` and `pollard` fail), C55 (the functions of `ForestState` that take targets answer
whatever the targets are, and the fuzz target `forest_state`).
-/

set_option linter.unusedSectionVars false

namespace Utreexo
open Spec Equiv

/-! ## C54: `batchproof` -/

/-- C54: whatever the input, the fuzz target `batchproof` ends without a failure. -/
theorem C54_batchproof (big : Bool) (data : List Byte) : Fuzz.batchproof big data = .ok () := by
  unfold Fuzz.batchproof
  split
  · rfl
  next a d1 h1 =>
  split
  · rfl
  next b d2 h2 =>
  split
  · rfl
  next bytes d3 h3 =>
  have hlen : bytes.length < 2 ^ 31 := by
    unfold Fuzz.take at h3
    split at h3
    · simp at h3
    · simp only [Option.some.injEq, Prod.mk.injEq] at h3
      rw [← h3.1, List.length_take]
      have x1 := (Codec.hostLoad big 8 a).isLt
      have x2 := (Codec.hostLoad big 8 b).isLt
      omega
  obtain ⟨ok, q, e1, -, -⟩ := C12_unserialize_safe big (BatchProof.mk' [] []) bytes hlen
  rw [e1, ok_bind]
  dsimp only
  cases ok with
  | false => rfl
  | true =>
    rw [if_pos rfl, C11_canonical big big _ q bytes [] e1, ok_bind]
    unfold cassert
    rw [if_pos (by simp)]

/-! ## C55: arbitrary targets -/

/-- C55: with at most `2^62` leaves the functions that take targets answer for every list of numbers: sorted or not, with
repetitions, beyond the leaves, of any length. -/
theorem C55_total (n : ℕ) (hn : n ≤ 2 ^ 62) (targets : List ℕ) :
    (∃ r, St.proofPositions n targets = .ok r) ∧ (∃ r, St.transform n targets = .ok r) ∧ (∃ r, St.undoTransform n targets = .ok r) ∧
      ∃ r, St.checkTargetsSanity n targets = .ok r := by
  refine ⟨St.proofRows_total hn _ _ _ (by omega), St.transform_total hn _, St.undoTransform_total hn _, ?_⟩
  obtain ⟨b, e, -⟩ := C07_checkTargetsSanity n targets
  exact ⟨b, e⟩

/-- C55: an input for the fuzz target `forest_state` that names at most `2^62` leaves makes it end without a failure. -/
theorem C55_forestState_partial (big : Bool) (data : List Byte)
    (hn : (Codec.hostLoad big 64 (data.take 8)).toNat ≤ 2 ^ 62) : Fuzz.forestState big data = .ok () := by
  unfold Fuzz.forestState
  split
  · rfl
  next a d1 h1 =>
  have ha : a = data.take 8 := by
    unfold Fuzz.take at h1
    split at h1
    · simp at h1
    · simp only [Option.some.injEq, Prod.mk.injEq] at h1
      exact h1.1.symm
  subst ha
  obtain ⟨-, ⟨ps, e1⟩, -⟩ := C06_forest _ hn
  dsimp only
  rw [e1, ok_bind]
  split
  · rfl
  next b d2 h2 =>
  split
  · rfl
  next c d3 h3 =>
  obtain ⟨⟨r1, f1⟩, ⟨r2, f2⟩, ⟨r3, f3⟩, ⟨r4, f4⟩⟩ := C55_total _ hn (St.sortU64 (Fuzz.words big (Codec.hostLoad big 16 b).toNat c))
  rw [f1, ok_bind, f2, ok_bind, f4, ok_bind, f3, ok_bind]
  rfl

namespace St

theorem rootPositionIn_cases (row n rows : ℕ) : rootPositionIn row n rows = .error .ub ∨ ∃ p, rootPositionIn row n rows = .ok p := by
  have hl : ∀ a s, shl64 a s = .error .ub ∨ ∃ p, shl64 a s = .ok p := by
    intro a s; unfold shl64; split
    · exact .inr ⟨_, rfl⟩
    · exact .inl rfl
  have hr : ∀ a s, shr64 a s = .error .ub ∨ ∃ p, shr64 a s = .ok p := by
    intro a s; unfold shr64; split
    · exact .inr ⟨_, rfl⟩
    · exact .inl rfl
  unfold rootPositionIn
  rcases hl 2 rows with e | ⟨m, e⟩ <;> rw [e]
  · exact .inl rfl
  rw [ok_bind]
  rcases hl (sub64 m 1) ((row : Int) + 1) with e | ⟨hi, e⟩ <;> dsimp only <;> rw [e]
  · exact .inl rfl
  rw [ok_bind]
  rcases hr (n &&& hi) row with e | ⟨a, e⟩ <;> rw [e]
  · exact .inl rfl
  rw [ok_bind]
  rcases hl (sub64 m 1) ((rows : Int) + 1 - row) with e | ⟨b, e⟩ <;> rw [e]
  · exact .inl rfl
  · exact .inr ⟨_, rfl⟩

/-- With 63 rows the root of row 0 cannot be found. -/
theorem rootPositionsLoop_ub {n : ℕ} (ho : n % 2 = 1) : ∀ k, k < 64 → rootPositionsLoop n 63 (k + 1) = .error .ub := by
  intro k
  induction k with
  | zero =>
    intro _
    unfold rootPositionsLoop
    rw [if_pos (by omega)]
    have : hasRoot n 0 = .ok true := by
      unfold hasRoot shr64
      rw [if_pos (by omega), ok_bind]
      simp [Nat.and_one_is_mod, ho]
    rw [this, ok_bind, if_pos rfl]
    have : rootPositionIn 0 n 63 = .error .ub := by
      unfold rootPositionIn shl64 shr64
      simp [ok_bind, error_bind]
    rw [this]
    rfl
  | succ k ih =>
    intro hk
    unfold rootPositionsLoop
    rw [if_pos hk]
    have : ∃ b, hasRoot n (k + 1) = .ok b := by
      unfold hasRoot shr64
      rw [if_pos (by omega), ok_bind]
      exact ⟨_, rfl⟩
    obtain ⟨b, e⟩ := this
    rw [e, ok_bind, ih (by omega)]
    cases b with
    | false => rfl
    | true =>
      rw [if_pos rfl]
      rcases rootPositionIn_cases (k + 1) n 63 with e | ⟨p, e⟩ <;> rw [e] <;> rfl

end St

/-- C55: above `2^62` leaves it is different: `RootPositions` shifts by 64 bits for every odd number of leaves, so the fuzz target runs
into undefined behaviour whatever the rest of the input is. -/
theorem C55_forestState_above (big : Bool) (data : List Byte) (hlen : 8 ≤ data.length)
    (h1 : 2 ^ 62 < (Codec.hostLoad big 64 (data.take 8)).toNat) (h2 : (Codec.hostLoad big 64 (data.take 8)).toNat ≤ 2 ^ 63)
    (ho : (Codec.hostLoad big 64 (data.take 8)).toNat % 2 = 1) : Fuzz.forestState big data = .error .ub := by
  have hrows : St.numRows (Codec.hostLoad big 64 (data.take 8)).toNat = 63 := by
    have l1 : ¬ St.numRows (Codec.hostLoad big 64 (data.take 8)).toNat ≤ 62 := fun h => by
      have := (numRows_le_iff (Codec.hostLoad big 64 (data.take 8)).isLt 62).1 h; omega
    have l2 := (numRows_le_iff (Codec.hostLoad big 64 (data.take 8)).isLt 63).2 h2
    omega
  unfold Fuzz.forestState Fuzz.take
  rw [if_neg (by omega)]
  dsimp only
  have : St.rootPositions (Codec.hostLoad big 64 (data.take 8)).toNat = .error .ub := by
    unfold St.rootPositions St.rootPositionsOf
    rw [hrows]
    exact St.rootPositionsLoop_ub ho 63 (by omega)
  rw [this]
  rfl

/-- C55: the loop over `Path` that is commented out in the target would be undefined behaviour for targets that are not in the
forest: the search for the tree counts the rows down past zero. -/
theorem C55_path_witness : St.path 0 0 = .error .ub ∧ St.path 5 5 = .error .ub ∧ St.path 5 7 = .error .ub := by
  decide +kernel

/-! ## C54: `pollard` -/

section Sha
open Pol
attribute [local instance] shaOps

/-- Go through the inner nodes of the forest with leaves `L` and return two siblings whose parent hash is zero. -/
def findZero {H : Type} [DecidableEq H] [HashOps H] (L : List H) : Option (H × H) :=
  (innerNodes L.length).findSome? fun x =>
    if Pol.node L (x.1 + 1) x.2 = HashOps.zero then some (Pol.node L x.1 (2 * x.2), Pol.node L x.1 (2 * x.2 + 1)) else none

/-- The search returns a message of 64 bytes with SHA-512/256 digest zero. -/
def ZeroFound (L : List Hash32) : Prop :=
  ∃ x, findZero L = some x ∧ (message x).length = 64 ∧ Spec.Sha.sha512_256 (message x) = List.replicate 32 0

namespace Fuzz

theorem zero_of {L : List Hash32} (hL : ∀ x ∈ L, x ≠ HashOps.zero) {r i : ℕ} (hi : InForest L.length r i) (hz : Pol.node L r i = HashOps.zero) :
    ZeroFound L := by
  cases r with
  | zero =>
    exfalso
    have hi' : i < L.length := by simpa [inForest_iff] using hi
    have : leafFn HashOps.zero L i = L[i] := by simp [leafFn, hi']
    exact hL _ (List.getElem_mem hi') (by rw [← this]; exact hz)
  | succ r =>
    have : (findZero L).isSome := by
      unfold findZero
      rw [List.findSome?_isSome_iff]
      refine ⟨(r, i), mem_innerNodes.2 hi, ?_⟩
      dsimp only
      rw [if_pos hz]
      rfl
    obtain ⟨x, e⟩ := Option.isSome_iff_exists.1 this
    refine ⟨x, e, by unfold message; simp [x.1.property, x.2.property], ?_⟩
    obtain ⟨⟨q, j⟩, -, h1⟩ := List.exists_of_findSome?_eq_some e
    dsimp only at h1
    split at h1
    · next hc =>
      obtain rfl := Option.some.inj h1
      exact congrArg Subtype.val hc
    · simp at h1

theorem setHash_inj {i j : ℕ} (hi : i < 256) (hj : j < 256) (h : setHash i = setHash j) : i = j := by
  unfold setHash at h
  have := congrArg Subtype.val h
  simp only [List.cons.injEq] at this
  have h1 := congrArg BitVec.toNat this.1
  simp only [BitVec.toNat_ofNat] at h1
  omega

theorem setHash_ne (i : ℕ) : setHash i ≠ (HashOps.zero : Hash32) := by
  intro h
  have := congrArg (fun x : Hash32 => x.val[4]?) h
  have e1 : (setHash i).val[4]? = some 255 := rfl
  have e2 : (HashOps.zero : Hash32).val[4]? = some 0 := rfl
  rw [e1, e2] at this
  exact absurd this (by decide)

theorem leaves_spec : ∀ (k i : ℕ) (data : List Byte) (ls : List (Leaf Hash32)) (rest : List Byte), leaves i k data = some (ls, rest) →
    ls.map Prod.fst = (List.range' i k).map setHash := by
  intro k
  induction k with
  | zero =>
    intro i data ls rest h
    simp only [leaves, Option.some.injEq, Prod.mk.injEq] at h
    rw [← h.1]; rfl
  | succ k ih =>
    intro i data ls rest h
    cases data with
    | nil => simp [leaves] at h
    | cons b data =>
      unfold leaves at h
      split at h
      · simp at h
      · next ls' rest' e =>
        simp only [Option.some.injEq, Prod.mk.injEq] at h
        rw [← h.1, List.map_cons, ih _ _ _ _ e, List.range'_succ, List.map_cons]

theorem targets_spec {F : RamForest Hash32} {L : List Hash32} (hL : Ram.Represents F L) : ∀ (k i : ℕ) (data : List Byte), i + k ≤ L.length →
    targets F i k data = .ok none ∨ ∃ (ts : List Hash32) (rest : List Byte) (D : List ℕ), targets F i k data = .ok (some (ts, rest)) ∧ D.Pairwise (· < ·) ∧
      (∀ t ∈ D, i ≤ t ∧ t < L.length) ∧ ts.map some = D.map fun t => L[t]? := by
  intro k
  induction k with
  | zero => intro i data _; exact .inr ⟨[], data, [], rfl, List.Pairwise.nil, by simp, rfl⟩
  | succ k ih =>
    intro i data h
    cases data with
    | nil => exact .inl rfl
    | cons b data =>
      have hi : i < L.length := by omega
      have hg : Ram.getLeaf F i = .ok L[i] := hL.leaf i _ (List.getElem?_eq_getElem hi)
      unfold targets
      rw [hg]
      rcases ih (i + 1) data (by omega) with e | ⟨ts, rest, D, e, d1, d2, d3⟩
      · left
        rw [e]
        cases b.getLsbD 0 <;> rfl
      · right
        rw [e]
        cases hb : b.getLsbD 0 with
        | false =>
          exact ⟨ts, rest, D, rfl, d1, fun t ht => by have := d2 t ht; omega, d3⟩
        | true =>
          refine ⟨L[i] :: ts, rest, i :: D, rfl, List.pairwise_cons.2 ⟨fun t ht => by have := d2 t ht; omega, d1⟩, ?_, ?_⟩
          · intro t ht
            rcases List.mem_cons.1 ht with rfl | ht
            · omega
            · have := d2 t ht; omega
          · rw [List.map_cons, List.map_cons, d3, List.getElem?_eq_getElem hi]

/-- What the first part of the target leads to. -/
theorem setup_spec (data : List Byte) : setup data = .ok none ∨ ∃ (F : RamForest Hash32) (p : Pollard Hash32) (ts : List Hash32) (proof : BatchProof Hash32) (rest : List Byte)
    (st : List (UndoBatch Hash32 × RamForest Hash32)) (L : List Hash32) (D : List ℕ), setup data = .ok (some (F, p, ts, proof, rest)) ∧
    Sync F st p ∧ Ram.Represents F L ∧ L.length < 128 ∧ (∀ x ∈ L, x ≠ HashOps.zero) ∧ Acc.prove Ram.vt F ts = .ok (some proof) ∧
    D.Pairwise (· < ·) ∧ (∀ t ∈ D, t < L.length) ∧ ts.map some = D.map (fun t => L[t]?) ∧ proof.sorted = D ∧ proof.targets = D := by
  unfold setup
  cases data with
  | nil => exact .inl rfl
  | cons b data =>
    dsimp only
    cases hls : leaves 0 (b &&& 127).toNat data with
    | none => exact .inl rfl
    | some x =>
      obtain ⟨ls, data'⟩ := x
      have hmap := leaves_spec _ _ _ _ _ hls
      have hn : (b &&& 127).toNat < 128 := by
        rw [BitVec.toNat_and]
        exact lt_of_le_of_lt Nat.and_le_right (by decide)
      generalize (b &&& 127).toNat = n at hls hmap hn
      have hL0 : Ram.Represents (Ram.mk 0 : RamForest Hash32) [] := Ram.mk_inv.represents (f := leafFn HashOps.zero []) (by omega)
      have hprove : Acc.prove Ram.vt (Ram.mk 0 : RamForest Hash32) [] = .ok (some ⟨[], [], []⟩) := by decide +kernel
      have hver : Pol.verify (mk 0 : Pollard Hash32) ⟨[], [], []⟩ [] = .ok (true, mk 0) := rfl
      have hnd : (ls.map Prod.fst).Nodup := by
        rw [hmap]
        refine (List.nodup_range').map_on ?_
        intro x hx y hy e
        simp only [List.mem_range'_1] at hx hy
        exact setHash_inj (by omega) (by omega) e
      have hlen : (ls.map Prod.fst).length = n := by rw [hmap]; simp
      obtain ⟨p1, u, F, p, L, e1, e2, e3, e4, e5, K, e6, e7⟩ := C23_apply (Ram.mk 0) [] (mk 0) Sync.empty [] hL0 [] _ hprove ls ls rfl
        ⟨List.Pairwise.nil, by simp, hnd, by simp [survivors], by simp, by simp only [List.length_nil, Nat.zero_sub, Nat.zero_add]; omega⟩ [] rfl
      rw [hver] at e1
      obtain rfl : (mk 0 : Pollard Hash32) = p1 := by simpa using e1
      have hK : K = [] := by
        have : survivors ([] : List Hash32) [] = [] := rfl
        rw [this] at e6
        exact e6.eq_nil
      subst hK
      rw [List.nil_append] at e7
      have hLlen : L.length = n := by rw [e7]; exact hlen
      have hLz : ∀ x ∈ L, x ≠ HashOps.zero := by
        intro x hx
        rw [e7, hmap] at hx
        obtain ⟨i, -, rfl⟩ := List.mem_map.1 hx
        exact setHash_ne i
      dsimp only at e2 e3
      dsimp only
      rw [e2, ok_bind]
      dsimp only
      rw [e3]
      rcases targets_spec e5 n 0 data' (by omega) with t1 | ⟨ts, rest, D, t1, t2, t3, t4⟩
      · left
        simp only [cassert, ok_bind, if_true, t1]
        rfl
      · right
        obtain ⟨proof, p', q1, q2, -, -⟩ := C24_positions F _ p e4 L e5 D t2 ts t4
        have hsync := e4
        obtain ⟨L1, A, hI⟩ := e4.inv
        obtain ⟨r, c1, -, c3⟩ := C22_prove F _ hI.run L e5 ts
        rw [q1] at c1
        obtain rfl := Except.ok.inj c1
        obtain ⟨g1, g2, g3, -⟩ := c3 proof rfl
        have htgt : proof.targets = D := by
          have h1 : proof.targets.map (fun t => L[t]?) = D.map fun t => L[t]? := by rw [g1, t4]
          have hget : ∀ (i j : ℕ) (x : Hash32), L[i]? = some x → L[j]? = some x → i = j := by
            intro i j x h1 h2
            have h3 := (e5.find x i).2 h1
            rw [(e5.find x j).2 h2] at h3
            exact (Option.some.inj h3).symm
          have key : ∀ a b : List ℕ, (∀ t ∈ b, t < L.length) → a.map (fun t => L[t]?) = b.map (fun t => L[t]?) → a = b := by
            intro a
            induction a with
            | nil => intro b _ h; cases b with
              | nil => rfl
              | cons y b => simp at h
            | cons x a ih => intro b hb h; cases b with
              | nil => simp at h
              | cons y b =>
                simp only [List.map_cons, List.cons.injEq] at h
                have hy := hb y List.mem_cons_self
                rw [ih b (fun t ht => hb t (List.mem_cons_of_mem _ ht)) h.2,
                  hget x y L[y] (by rw [h.1, List.getElem?_eq_getElem hy]) (List.getElem?_eq_getElem hy)]
          exact key _ _ (fun t ht => (t3 t ht).2) h1
        refine ⟨F, p, ts, proof, rest, _, L, D, ?_, hsync, e5, by omega, hLz, q1, t2, fun t ht => (t3 t ht).2, t4, q2, htgt⟩
        simp only [cassert, ok_bind, if_true, t1, q1]
        rfl

end Fuzz

/-- C54: whatever the input, the fuzz target `pollard` ends without a failure, unless the run itself shows a break of the hash
function: either two siblings in the forest have the parent hash zero, or the pollard accepted the altered proof and the
search through the pollard returns a collision of SHA-512/256. -/
theorem C54_pollard (data : List Byte) : Fuzz.pollard data = .ok () ∨
    ∃ F p ts proof rest L, Fuzz.setup data = .ok (some (F, p, ts, proof, rest)) ∧ Ram.Represents F L ∧
      (ZeroFound L ∨ ∃ p', verify p (Fuzz.alter proof) ts = .ok (true, p') ∧ ShaFound p' L) := by
  rcases Fuzz.setup_spec data with e | ⟨F, p, ts, proof, rest, st, L, D, e, h1, h2, h3, h4, h5, h6, h7, h8, h9, h10⟩
  · left; unfold Fuzz.pollard; rw [e]; rfl
  by_cases hgoal : ZeroFound L ∨ ∃ p', verify p (Fuzz.alter proof) ts = .ok (true, p') ∧ ShaFound p' L
  · exact .inr ⟨F, p, ts, proof, rest, L, e, h2, hgoal⟩
  left
  rw [not_or] at hgoal
  obtain ⟨nz, nf⟩ := hgoal
  unfold Fuzz.pollard
  rw [e, ok_bind]
  dsimp only
  cases rest with
  | nil => rfl
  | cons b rest =>
  dsimp only
  obtain ⟨L0, A, hI⟩ := h1.inv
  obtain rfl := h2.unique hI.rep
  split
  · next hc =>
    have hs : (Fuzz.alter proof).sorted = D := by
      unfold Fuzz.alter BatchProof.mk'
      dsimp only
      rw [h10]
      exact List.Perm.eq_of_pairwise (fun x y _ _ h1 h2 => by omega) (sortU64_sorted (h6.imp Nat.ne_of_lt)) h6 (Ram.sortU64_perm D)
    obtain ⟨r, c1, -, c3⟩ := C22_prove F st hI.run L h2 ts
    rw [h5] at c1
    obtain rfl := Except.ok.inj c1
    obtain ⟨-, -, -, nodes, g4, g5, g6⟩ := c3 proof rfl
    have hne : D ≠ [] := by
      rintro rfl
      have : nodes = [] := by
        rw [List.eq_nil_iff_forall_not_mem]
        rintro ⟨r, k⟩ hm
        obtain ⟨j, b, -, -, -, ⟨a, ha, -⟩, -⟩ := (g5 r k).1 hm
        rw [h10] at ha; simp at ha
      rw [g6, this] at hc
      simp at hc
    have key : ∃ p', verify p (Fuzz.alter proof) ts = .ok (false, p') := by
      rcases verify_ok hI.inv hI.len (Fuzz.alter proof) ts with ⟨e, -⟩ | ⟨-, ht, -⟩ | ⟨-, -, r, x, q, hq, hz⟩ | ⟨s', e, -⟩ | ⟨s', A1, e, ht, -⟩
      · exact ⟨_, e⟩
      · exact absurd (h10.symm.trans ht) hne
      · exfalso
        refine nz (Fuzz.zero_of h4 (r := r) (i := x) ?_ hz)
        rw [inForest_iff]
        by_contra hx
        rw [hI.inv.out r x hx] at hq; simp at hq
      · exact ⟨_, e⟩
      · exfalso
        have hnc : ¬ Collision s' L := fun hcol => nf ⟨s', e, shaFound_of hcol⟩
        have hj := (C40_no_junk F st p h1 L h2 (Fuzz.alter proof) ts ht nodes ⟨g4, by rw [hs, ← h10]; exact g5⟩ s' e hnc).1
        have hlen : (Fuzz.alter proof).hashes.length = (nodes.map fun a => node L a.1 a.2).length := by
          rw [← g6]; unfold Fuzz.alter BatchProof.mk'; simp
        have heq := hj.eq_of_length hlen
        cases nodes with
        | nil => rw [g6] at hc; simp at hc
        | cons a nodes =>
          have h0 : (Fuzz.alter proof).hashes = Fuzz.zeroHash :: nodes.map fun a => node L a.1 a.2 := by
            unfold Fuzz.alter BatchProof.mk'
            dsimp only
            rw [g6]; rfl
          rw [h0, List.map_cons, List.cons.injEq] at heq
          obtain ⟨j, b, hb, hk, hj, -⟩ := (g5 a.1 a.2).1 List.mem_cons_self
          refine nz (Fuzz.zero_of h4 (r := a.1) (i := a.2) ?_ (heq.1.symm.trans rfl))
          rw [inForest_iff] at hj ⊢
          rw [div_succ_row] at hj
          omega
    obtain ⟨p', e'⟩ := key
    rw [e']
    rfl
  · obtain ⟨p1, u, F', p2, L', a1, a2, a3, a4, -, -⟩ := C23_apply F st p h1 L h2 ts proof h5 [] [] rfl
      ⟨by rw [h9]; exact h6, by rw [h9]; exact h7, List.nodup_nil, by simp, fun _ => by omega, by simp; omega⟩ ts (by rw [h9]; exact h8)
    obtain ⟨-, rs, b1, b2⟩ := C23_agree _ _ _ a4
    simp only [a1, a2, a3, b1, b2, ok_bind, cassert, if_true, beq_self_eq_true]

end Sha

/-! ## Concrete cases -/

section Examples

/-- An input with one target and no hash that is decoded, encoded and compared. -/
example : Fuzz.batchproof false ([1, 0] ++ [0, 0, 0, 1, 0, 0, 0, 0, 0, 0, 0, 7]) = .ok () ∧
    Batch.unserialize false (BatchProof.mk' [] []) [0, 0, 0, 1, 0, 0, 0, 0, 0, 0, 0, 7] = .ok (true, { targets := [7], sorted := [7], hashes := [] }) := by
  decide +kernel

/-- The input of the target, for a little endian host. -/
def stateInput (n : ℕ) (targets : List ℕ) : List Byte :=
  Codec.leBytes 8 n ++ Codec.leBytes 2 targets.length ++ targets.flatMap (Codec.leBytes 8)

/-- Five leaves and targets that repeat and lie far outside. -/
example : Fuzz.forestState false (stateInput 5 [3, 3, 9, 2 ^ 64 - 1, 0]) = .ok () ∧
    Fuzz.words false 5 ((stateInput 5 [3, 3, 9, 2 ^ 64 - 1, 0]).drop 10) = [3, 3, 9, 2 ^ 64 - 1, 0] := by decide +kernel

/-- The hypotheses of `C55_forestState_above` are met. -/
example : Fuzz.forestState false (stateInput (2 ^ 62 + 1) []) = .error .ub := by decide +kernel

attribute [local instance] shaOps

/-- Three leaves of which the second is remembered and the last two are deleted, with the real hash function. The proof has one hash. -/
example : (do return (← Fuzz.setup [3, 0, 1, 0, 0, 1, 1, 0]).map fun x => (x.2.2.2.1.targets, x.2.2.2.1.hashes)) =
    (.ok (some ([1, 2], [Fuzz.setHash 0])) : Res _) := by decide +kernel

/-- With this proof and with the altered proof the target succeeds. -/
example : Fuzz.pollard [3, 0, 1, 0, 0, 1, 1, 1] = .ok () ∧ Fuzz.pollard [3, 0, 1, 0, 0, 1, 1, 0] = .ok () := by decide +kernel

/-- The target can fail: with a hash function that ignores its arguments the altered proof is accepted. -/
example : (@Fuzz.pollard ⟨fun _ _ => Fuzz.setHash 9, Fuzz.zeroHash⟩ [3, 0, 0, 0, 0, 1, 1, 0]) = .error .abort := by decide +kernel

end Examples

end Utreexo
