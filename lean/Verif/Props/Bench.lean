import Verif.Model.Bench
import Verif.Props.Base
import Verif.Props.File
import Verif.Props.Hashes
import Verif.Props.Sha

/-!
# The benchmarks

C69: for every size and whatever `rand()` returns, the benchmarks do what their names say, except that `VerifyElementsPollard`
measures rejected verifications.
-/

set_option linter.unusedSectionVars false

namespace Utreexo
open Spec Equiv Bench

namespace Bench

/-! ## Leaves -/

theorem setHash_inj {i j : ℕ} (hi : i < 2 ^ 32) (hj : j < 2 ^ 32) (h : setHash i = setHash j) : i = j := by
  unfold setHash at h
  have := congrArg Subtype.val h
  simp only [List.cons.injEq] at this
  obtain ⟨h1, h2, h3, h4, -⟩ := this
  have g1 := congrArg BitVec.toNat h1
  have g2 := congrArg BitVec.toNat h2
  have g3 := congrArg BitVec.toNat h3
  have g4 := congrArg BitVec.toNat h4
  simp only [BitVec.toNat_ofNat, Nat.shiftRight_eq_div_pow] at g1 g2 g3 g4
  omega

theorem testLeaves_eq : ∀ (n o : ℕ), testLeaves n o = (List.range' o n).map fun i => (setHash i, false)
  | 0, _ => rfl
  | n + 1, o => by rw [testLeaves, testLeaves_eq n (o + 1), List.range'_succ, List.map_cons]

/-- The hashes of the leaves. -/
def hashesOf (n : ℕ) : List Hash32 := (List.range n).map setHash

theorem testLeaves_fst (n : ℕ) : (testLeaves n 0).map Prod.fst = hashesOf n := by
  unfold hashesOf
  rw [testLeaves_eq, List.map_map, List.range_eq_range']
  rfl

theorem hashesOf_nodup {n : ℕ} (hn : n ≤ 2 ^ 32) : (hashesOf n).Nodup := by
  refine List.nodup_range.map_on ?_
  intro x hx y hy e
  rw [List.mem_range] at hx hy
  exact setHash_inj (by omega) (by omega) e

theorem hashesOf_length (n : ℕ) : (hashesOf n).length = n := by simp [hashesOf]

theorem hashesOf_get {n i : ℕ} (hi : i < n) : (hashesOf n)[i]? = some (setHash i) := by
  unfold hashesOf
  rw [List.getElem?_map, List.getElem?_range hi]; rfl

/-! ## Sizes and repetitions -/

theorem runs_const {α : Type} {body : Unit → Res (α × Unit)} {a : α} (h : body () = .ok (a, ())) :
    ∀ m, runs body m () = .ok (List.replicate m a, ())
  | 0 => rfl
  | m + 1 => by
    unfold runs
    rw [h, ok_bind]
    dsimp only
    rw [runs_const h m, ok_bind]
    rfl

/-- The numbers `idx` are those that `random_unique` chooses: half of all, without repetition. -/
structure Chosen (rnd : ℕ → ℕ) (k : ℕ) (idx : List ℕ) : Prop where
  length : idx.length = k
  distinct : idx.Nodup
  bound : ∀ i ∈ idx, i < k * 2
  drawn : (randomUnique rnd k 0 (List.range (k * 2))).map (List.take k) = .ok idx

/-- The number of leaves of a benchmark. -/
def sizeOf (N dflt : ℕ) : ℕ := if N > 1 then N else dflt

theorem size_ok {N d : ℕ} (hN : N < 2 ^ 31) : size N d = .ok (sizeOf N d) := by
  unfold size sizeOf
  split
  · rw [if_pos (by omega)]
  · rfl

theorem twice_ok {k : ℕ} (hk : k < 2 ^ 30) : twice k = .ok (k * 2) := by
  unfold twice
  rw [if_pos (by omega)]

theorem sizeOf_lt {N d b : ℕ} (hN : N < b) (hd : d < b) : sizeOf N d < b := by
  unfold sizeOf; split <;> assumption

/-! ## The shuffle -/

/-- Exchange two elements. -/
theorem swap_perm {α : Type} : ∀ (v : List α) (b r : ℕ) (hb : b < v.length) (hr : r < v.length),
    ((v.set b v[r]).set r v[b]).Perm v := by
  intro v b r hb hr
  classical
  rw [List.perm_iff_count]
  intro x
  rw [List.count_set (by simpa using hr), List.count_set hb, List.getElem_set]
  have h1 : v[b] = x → 0 < v.count x := fun e => List.count_pos_iff.2 (e ▸ List.getElem_mem _)
  have h2 : v[r] = x → 0 < v.count x := fun e => List.count_pos_iff.2 (e ▸ List.getElem_mem _)
  by_cases e1 : v[b] = x
  · by_cases e2 : v[r] = x
    · have := h1 e1
      by_cases e3 : b = r <;> simp [e1, e2, e3] <;> omega
    · have := h1 e1
      have e3 : b ≠ r := by rintro rfl; exact e2 e1
      simp [e1, e2, e3]; omega
  · by_cases e2 : v[r] = x
    · have e3 : b ≠ r := by rintro rfl; exact e1 e2
      simp [e1, e2, e3]
    · by_cases e3 : b = r <;> simp [e1, e2, e3]

/-- `v` with the elements at `b` and `r` exchanged. -/
def exchange {α : Type} (v : List α) (b r : ℕ) (hb : b < v.length) (hr : r < v.length) : List α := (v.set b v[r]).set r v[b]

theorem exchange_length {α : Type} (v : List α) (b r : ℕ) (hb : b < v.length) (hr : r < v.length) :
    (exchange v b r hb hr).length = v.length := by simp [exchange]

theorem exchange_at {α : Type} (v : List α) (b r : ℕ) (hb : b < v.length) (hr : r < v.length) :
    (exchange v b r hb hr)[b]? = some v[r] := by
  unfold exchange
  rw [List.getElem?_set]
  by_cases e : r = b
  · subst e; simp [hr]
  · rw [if_neg e, List.getElem?_set_self hb]

theorem exchange_before {α : Type} (v : List α) (b r : ℕ) (hb : b < v.length) (hr : r < v.length) (hbr : b ≤ r) :
    (exchange v b r hb hr).take b = v.take b := by
  unfold exchange
  rw [List.take_set_of_le (by omega), List.take_set_of_le (by omega)]

/-- One step of the shuffle. -/
theorem randomUnique_step {α : Type} (rnd : ℕ → ℕ) (num b : ℕ) (v : List α) (hb : b < v.length)
    (hr : b + rnd b % (v.length - b) < v.length) :
    randomUnique rnd (num + 1) b v = randomUnique rnd num (b + 1) (exchange v b (b + rnd b % (v.length - b)) hb hr) := by
  rw [randomUnique]
  rw [if_neg (by omega)]
  dsimp only
  rw [vecGet_ok (List.getElem?_eq_getElem hb), vecGet_ok (List.getElem?_eq_getElem hr)]
  have s1 : ∀ (v : List α) (i : ℕ) (x : α), i < v.length → vecSet v i x = .ok (v.set i x) := by
    intro v i x hi
    unfold vecSet
    rw [if_pos hi]
  simp only [pure_ok, ok_bind]
  rw [s1 _ _ _ hb, ok_bind, s1 _ _ _ (by simpa using hr), ok_bind]
  rfl

theorem randomUnique_ok {α : Type} (rnd : ℕ → ℕ) : ∀ (num b : ℕ) (v : List α), b + num ≤ v.length →
    ∃ w, randomUnique rnd num b v = .ok w ∧ w.Perm v
  | 0, b, v, _ => ⟨v, rfl, .refl _⟩
  | num + 1, b, v, h => by
    have hr : b + rnd b % (v.length - b) < v.length := by
      have := Nat.mod_lt (rnd b) (show 0 < v.length - b by omega)
      omega
    have hb : b < v.length := by omega
    obtain ⟨w, e1, e2⟩ := randomUnique_ok rnd num (b + 1) (exchange v b (b + rnd b % (v.length - b)) hb hr)
      (by rw [exchange_length]; omega)
    exact ⟨w, by rw [randomUnique_step rnd num b v hb hr, e1], e2.trans (swap_perm v _ _ hb hr)⟩

theorem draw_lt {rnd : ℕ → ℕ} {b n : ℕ} (hb : b < n) : b + rnd b % (n - b) < n := by
  have := Nat.mod_lt (rnd b) (show 0 < n - b by omega)
  omega

/-- The elements already chosen stay where they are. -/
theorem randomUnique_before {α : Type} (rnd : ℕ → ℕ) : ∀ (num b : ℕ) (v w : List α), b + num ≤ v.length →
    randomUnique rnd num b v = .ok w → w.take b = v.take b
  | 0, b, v, w, _, h => by rw [← Except.ok.inj h]
  | num + 1, b, v, w, hl, h => by
    have hb : b < v.length := by omega
    rw [randomUnique_step rnd num b v hb (draw_lt hb)] at h
    have := congrArg (List.take b) (randomUnique_before rnd num (b + 1) _ w (by rw [exchange_length]; omega) h)
    rw [List.take_take, List.take_take, Nat.min_eq_left (by omega), exchange_before _ _ _ _ _ (by omega)] at this
    exact this

/-- Only the draws from `b` on matter. -/
theorem randomUnique_congr {α : Type} {rnd rnd' : ℕ → ℕ} : ∀ (num b : ℕ) (v : List α), b + num ≤ v.length →
    (∀ i, b ≤ i → i < b + num → rnd i = rnd' i) → randomUnique rnd num b v = randomUnique rnd' num b v
  | 0, _, _, _, _ => rfl
  | num + 1, b, v, hl, h => by
    have hb : b < v.length := by omega
    rw [randomUnique_step rnd num b v hb (draw_lt hb), randomUnique_step rnd' num b v hb (draw_lt hb)]
    simp only [h b le_rfl (by omega)]
    exact randomUnique_congr num (b + 1) _ (by rw [exchange_length]; omega) fun i hi hi' => h i (by omega) (by omega)

/-- The first element chosen. -/
theorem randomUnique_head {α : Type} (rnd : ℕ → ℕ) (num b : ℕ) (v w : List α) (hl : b + (num + 1) ≤ v.length)
    (h : randomUnique rnd (num + 1) b v = .ok w) : w[b]? = v[b + rnd b % (v.length - b)]? := by
  have hb : b < v.length := by omega
  rw [randomUnique_step rnd num b v hb (draw_lt hb)] at h
  have := congrArg (fun l => l[b]?) (randomUnique_before rnd num (b + 1) _ w (by rw [exchange_length]; omega) h)
  rw [List.getElem?_take_of_lt (by omega), List.getElem?_take_of_lt (by omega), exchange_at] at this
  rw [this, List.getElem?_eq_getElem]

/-- What is left to choose from after a step. -/
theorem exchange_rest {α : Type} (v : List α) (b r : ℕ) (hb : b < v.length) (hr : r < v.length) (hbr : b ≤ r) :
    (v[r] :: (exchange v b r hb hr).drop (b + 1)).Perm (v.drop b) := by
  have h1 : (exchange v b r hb hr).Perm v := swap_perm v b r hb hr
  rw [← List.take_append_drop b (exchange v b r hb hr), exchange_before v b r hb hr hbr] at h1
  have h2 : (v.take b ++ (exchange v b r hb hr).drop b).Perm (v.take b ++ v.drop b) := by rwa [List.take_append_drop]
  rw [List.perm_append_left_iff] at h2
  have h3 : (exchange v b r hb hr).drop b = v[r] :: (exchange v b r hb hr).drop (b + 1) := by
    rw [List.drop_eq_getElem_cons (by rw [exchange_length]; exact hb)]
    congr 1
    exact Option.some.inj ((List.getElem?_eq_getElem _).symm.trans (exchange_at v b r hb hr))
  rwa [h3] at h2

theorem chosen_cons {α : Type} {v : List α} {b num : ℕ} {x : α} (h : v[b]? = some x) :
    (v.drop b).take (num + 1) = x :: (v.drop (b + 1)).take num := by
  obtain ⟨hb, rfl⟩ := List.getElem?_eq_some_iff.1 h
  rw [List.drop_eq_getElem_cons hb, List.take_succ_cons]

/-- Every list of distinct elements is chosen by exactly one sequence of draws. -/
theorem shuffle_key {α : Type} : ∀ (w : List α) (b : ℕ) (v : List α), v.Nodup → w.Nodup → (∀ x ∈ w, x ∈ v.drop b) →
    b + w.length ≤ v.length →
    (∃ rnd : ℕ → ℕ, (∀ i, b ≤ i → i < b + w.length → rnd i < v.length - i) ∧
      ∃ v', randomUnique rnd w.length b v = .ok v' ∧ (v'.drop b).take w.length = w) ∧
    ∀ rnd rnd' : ℕ → ℕ, (∀ i, b ≤ i → i < b + w.length → rnd i < v.length - i) → (∀ i, b ≤ i → i < b + w.length → rnd' i < v.length - i) →
      (∃ v', randomUnique rnd w.length b v = .ok v' ∧ (v'.drop b).take w.length = w) →
      (∃ v', randomUnique rnd' w.length b v = .ok v' ∧ (v'.drop b).take w.length = w) →
      ∀ i, b ≤ i → i < b + w.length → rnd i = rnd' i
  | [], b, v, _, _, _, _ => by
    refine ⟨⟨fun _ => 0, fun i h1 h2 => ?_, v, rfl, by simp⟩, fun _ _ _ _ _ _ i h1 h2 => ?_⟩ <;>
      (simp only [List.length_nil] at h2; omega)
  | x :: t, b, v, hv, hw, hm, hl => by
    rw [List.length_cons] at hl
    have hb : b < v.length := by omega
    rw [List.nodup_cons] at hw
    have next : ∀ r (hr : r < v.length), b ≤ r → v[r] = x → (exchange v b r hb hr).Nodup ∧
        ∀ y ∈ t, y ∈ (exchange v b r hb hr).drop (b + 1) := by
      intro r hr hbr e
      refine ⟨(swap_perm v b r hb hr).nodup_iff.2 hv, fun y hy => ?_⟩
      have h1 := (exchange_rest v b r hb hr hbr).mem_iff.2 (hm y (List.mem_cons_of_mem _ hy))
      rcases List.mem_cons.1 h1 with h1 | h1
      · rw [e] at h1; subst h1; exact absurd hy hw.1
      · exact h1
    constructor
    · obtain ⟨j, hj, e⟩ := List.getElem_of_mem (hm x (List.mem_cons_self ..))
      rw [List.length_drop] at hj
      rw [List.getElem_drop] at e
      have hr : b + j < v.length := by omega
      obtain ⟨n1, n2⟩ := next (b + j) hr (by omega) e
      obtain ⟨⟨rnd, k1, v', k2, k3⟩, -⟩ := shuffle_key t (b + 1) _ n1 hw.2 n2 (by rw [exchange_length]; omega)
      rw [exchange_length] at k1
      obtain ⟨R, R1, R2⟩ : ∃ R : ℕ → ℕ, R b = j ∧ ∀ i, b + 1 ≤ i → R i = rnd i :=
        ⟨fun i => if i = b then j else rnd i, by simp, fun i hi => if_neg (by omega)⟩
      have hd : R b % (v.length - b) = j := by rw [R1]; exact Nat.mod_eq_of_lt (by omega)
      have hrun : randomUnique R (t.length + 1) b v = .ok v' := by
        rw [randomUnique_step _ _ _ _ hb (draw_lt hb)]
        simp only [hd]
        rw [← k2]
        exact randomUnique_congr _ _ _ (by rw [exchange_length]; omega) fun i hi _ => R2 i hi
      refine ⟨R, ?_, v', hrun, ?_⟩
      · intro i h1 h2
        rw [List.length_cons] at h2
        by_cases h : i = b
        · rw [h, R1]; omega
        · rw [R2 i (by omega)]; exact k1 i (by omega) (by omega)
      · have h1 := randomUnique_head _ t.length b v v' (by omega) hrun
        rw [hd, List.getElem?_eq_getElem hr, e] at h1
        rw [List.length_cons, chosen_cons h1, k3]
    · rintro rnd rnd' a1 a2 ⟨v1, b1, b2⟩ ⟨v2, c1, c2⟩
      rw [List.length_cons] at a1 a2 b1 b2 c1 c2
      have first : ∀ (rnd : ℕ → ℕ) (v' : List α), rnd b < v.length - b → randomUnique rnd (t.length + 1) b v = .ok v' →
          (v'.drop b).take (t.length + 1) = x :: t → v[b + rnd b]? = some x ∧ rnd b % (v.length - b) = rnd b ∧
            (v'.drop (b + 1)).take t.length = t := by
        intro rnd v' hd h1 h2
        have hmod : rnd b % (v.length - b) = rnd b := Nat.mod_eq_of_lt hd
        have h3 := randomUnique_head rnd t.length b v v' (by omega) h1
        have hlt : b + rnd b < v.length := by omega
        rw [hmod, List.getElem?_eq_getElem hlt] at h3
        rw [chosen_cons h3, List.cons.injEq] at h2
        exact ⟨by rw [List.getElem?_eq_getElem hlt, h2.1], hmod, h2.2⟩
      obtain ⟨f1, f2, f3⟩ := first rnd v1 (a1 b le_rfl (by omega)) b1 b2
      obtain ⟨g1, g2, g3⟩ := first rnd' v2 (a2 b le_rfl (by omega)) c1 c2
      have hlt : b + rnd b < v.length := by have := a1 b le_rfl (by omega); omega
      have heq : rnd b = rnd' b := by
        have := (List.getElem?_inj hlt hv).1 (f1.trans g1.symm)
        omega
      rw [randomUnique_step rnd _ b v hb (draw_lt hb)] at b1
      rw [randomUnique_step rnd' _ b v hb (draw_lt hb)] at c1
      simp only [f2] at b1
      simp only [g2] at c1
      simp only [← heq] at c1
      obtain ⟨n1, n2⟩ := next (b + rnd b) hlt (by omega) (Option.some.inj ((List.getElem?_eq_getElem hlt).symm.trans f1))
      obtain ⟨-, k⟩ := shuffle_key t (b + 1) _ n1 hw.2 n2 (by rw [exchange_length]; omega)
      rw [exchange_length] at k
      intro i h1 h2
      rw [List.length_cons] at h2
      by_cases hi : i = b
      · rw [hi]; exact heq
      · exact k rnd rnd' (fun i h1 h2 => a1 i (by omega) (by omega)) (fun i h1 h2 => a2 i (by omega) (by omega)) ⟨v1, b1, f3⟩ ⟨v2, c1, g3⟩ i
          (by omega) (by omega)

theorem firstHashes_ok (v : List (Leaf Hash32)) : ∀ (k i : ℕ), i + k ≤ v.length →
    firstHashes v k i = .ok (((v.drop i).take k).map Prod.fst)
  | 0, i, _ => by simp [firstHashes]
  | k + 1, i, h => by
    have hi : i < v.length := by omega
    unfold firstHashes
    rw [vecGet_ok (List.getElem?_eq_getElem hi), ok_bind, firstHashes_ok v k (i + 1) (by omega), ok_bind,
      List.drop_eq_getElem_cons hi, List.take_succ_cons, List.map_cons]
    rfl

theorem randomUnique_map {α β : Type} (f : α → β) (rnd : ℕ → ℕ) : ∀ (num b : ℕ) (v w : List α), b + num ≤ v.length →
    randomUnique rnd num b v = .ok w → randomUnique rnd num b (v.map f) = .ok (w.map f)
  | 0, _, _, _, _, h => by rw [← Except.ok.inj h]; rfl
  | num + 1, b, v, w, hl, h => by
    have hb : b < v.length := by omega
    have hb' : b < (v.map f).length := by simpa using hb
    rw [randomUnique_step rnd num b v hb (draw_lt hb)] at h
    rw [randomUnique_step rnd num b _ hb' (draw_lt hb')]
    rw [← randomUnique_map f rnd num (b + 1) _ w (by rw [exchange_length]; omega) h]
    congr 1
    unfold exchange
    simp only [List.map_set, List.getElem_map, List.length_map]

theorem not_contains {α : Type} [DecidableEq α] (x : α) (l : List α) [Decidable (x ∉ l)] : (!l.contains x) = decide (x ∉ l) := by
  rw [Bool.eq_iff_iff]
  simp

/-- The numbers of the leaves that are chosen: distinct ones, as many as asked for. -/
theorem choose_ok (rnd : ℕ → ℕ) (k : ℕ) (hk : k < 2 ^ 30) : ∃ (w : List (Leaf Hash32)) (idx : List ℕ),
    randomUnique rnd k 0 (testLeaves (k * 2) 0) = .ok w ∧ firstHashes w k 0 = .ok (idx.map setHash) ∧ idx.length = k ∧ idx.Nodup ∧
      (∀ i ∈ idx, i < k * 2) ∧ (randomUnique rnd k 0 (List.range (k * 2))).map (List.take k) = .ok idx := by
  obtain ⟨l, e1, h1⟩ := randomUnique_ok rnd k 0 (List.range (k * 2)) (by simp; omega)
  have e2 := randomUnique_map (fun i => (setHash i, false)) rnd k 0 _ l (by simp; omega) e1
  rw [List.range_eq_range', ← testLeaves_eq] at e2
  refine ⟨_, l.take k, e2, ?_, ?_, ?_, ?_, by rw [e1]; rfl⟩
  · rw [firstHashes_ok _ k 0 (by rw [List.length_map, h1.length_eq]; simp; omega), List.drop_zero, ← List.map_take, List.map_map]
    rfl
  · rw [List.length_take, h1.length_eq]; simp; omega
  · exact (h1.nodup_iff.2 List.nodup_range).sublist (List.take_sublist _ _)
  · intro i hi
    exact List.mem_range.1 (h1.mem_iff.1 (List.mem_of_mem_take hi))

variable [HashOps Hash32]

/-- A forest with the leaves of a benchmark, made by one `Modify`, with the pollard that got the same leaves. -/
theorem modify_ok {n : ℕ} (hn : n < 2 ^ 31) : ∃ u F p, Ram.modify (Ram.mk 0) (testLeaves n 0) [] = .ok (true, some u, F) ∧
    Pol.modify (Pol.mk 0) (testLeaves n 0) [] = .ok (true, p) ∧ Pol.Sync F [(u, Ram.mk 0)] p ∧ Ram.Run F [(u, Ram.mk 0)] ∧
    Ram.Represents F (hashesOf n) := by
  have hL0 : Ram.Represents (Ram.mk 0 : RamForest Hash32) [] := Ram.mk_inv.represents (f := leafFn HashOps.zero []) (by omega)
  have hprove : Acc.prove Ram.vt (Ram.mk 0 : RamForest Hash32) [] = .ok (some ⟨[], [], []⟩) := rfl
  have hver : Pol.verify (Pol.mk 0 : Pollard Hash32) ⟨[], [], []⟩ [] = .ok (true, Pol.mk 0) := by
    unfold Pol.verify
    have key : Pol.checkSanity (⟨[], [], []⟩ : BatchProof Hash32) 0 = .ok true := by clear * -; decide +kernel
    have : Pol.checkSanity (⟨[], [], []⟩ : BatchProof Hash32) (Pol.mk 0 : Pollard Hash32).numLeaves = .ok true := key
    rw [if_neg (by simp), this, ok_bind]
    rfl
  have hv : Ram.Valid ([] : List Hash32) ((testLeaves n 0).map Prod.fst) [] := by
    rw [testLeaves_fst]
    refine ⟨List.Pairwise.nil, by simp, hashesOf_nodup (by omega), by simp [survivors], by simp, ?_⟩
    rw [hashesOf_length]
    simp only [List.length_nil]
    omega
  obtain ⟨p1, u, F, p, L, e1, e2, e3, e4, e5, K, e6, e7⟩ := C23_apply (Ram.mk 0) [] (Pol.mk 0) Pol.Sync.empty [] hL0 [] _ hprove _ _ rfl
    hv [] rfl
  rw [hver] at e1
  obtain rfl : (Pol.mk 0 : Pollard Hash32) = p1 := by simpa using e1
  have hK : K = [] := by
    have : survivors ([] : List Hash32) [] = [] := rfl
    rw [this] at e6
    exact e6.eq_nil
  subst hK
  rw [List.nil_append, testLeaves_fst] at e7
  subst e7
  exact ⟨u, F, p, e2, e3, e4, Ram.Run.modify Ram.Run.empty hL0 hv e2, e5⟩

/-- The same with `Add`. -/
theorem add_ok {n : ℕ} (hn : n < 2 ^ 31) : ∃ F st, Ram.add (Ram.mk 0) (testLeaves n 0) = .ok F ∧ Ram.Run F st ∧
    Ram.Represents F (hashesOf n) := by
  have hL0 : Ram.Represents (Ram.mk 0 : RamForest Hash32) [] := Ram.mk_inv.represents (f := leafFn HashOps.zero []) (by omega)
  have hl : (testLeaves n 0).length = n := by rw [testLeaves_eq]; simp
  obtain ⟨F, s'', e1, e2, e3, -⟩ := C61_add (Ram.mk 0) [] Ram.Run.empty [] hL0 (testLeaves n 0)
    (by rw [testLeaves_fst]; exact hashesOf_nodup (by omega)) (by simp) (by rw [hl]; simp only [List.length_nil]; omega)
  rw [List.nil_append, testLeaves_fst] at e2
  exact ⟨F, _, e1, e3, e2⟩

/-- `Prove` for some of the leaves. -/
theorem prove_ok {n : ℕ} (hn : n ≤ 2 ^ 31) {F : RamForest Hash32} {st : List (UndoBatch Hash32 × RamForest Hash32)} (hr : Ram.Run F st)
    (hL : Ram.Represents F (hashesOf n)) {idx : List ℕ} (h1 : idx.Nodup) (h2 : ∀ i ∈ idx, i < n) :
    ∃ proof, Acc.prove Ram.vt F (idx.map setHash) = .ok (some proof) ∧ proof.targets = idx ∧ proof.sorted.Pairwise (· < ·) ∧
      proof.sorted.Perm idx := by
  obtain ⟨r, e1, e2, e3⟩ := C22_prove F st hr _ hL (idx.map setHash)
  have hs : r.isSome := by
    rw [e2]
    refine ⟨h1.map_on ?_, ?_⟩
    · intro x hx y hy e
      have := h2 x hx
      have := h2 y hy
      exact setHash_inj (by omega) (by omega) e
    · intro x hx
      obtain ⟨i, hi, rfl⟩ := List.mem_map.1 hx
      exact List.mem_map_of_mem (List.mem_range.2 (h2 i hi))
  obtain ⟨proof, rfl⟩ := Option.isSome_iff_exists.1 hs
  obtain ⟨a1, a2, a3, -⟩ := e3 proof rfl
  have : proof.targets = idx := by
    refine positions_inj (nodup_of_run hr hL) a1 ?_
    rw [List.map_map]
    apply List.map_congr_left
    intro i hi
    exact hashesOf_get (h2 i hi)
  rw [this] at a3
  exact ⟨proof, e1, this, a2, a3⟩

end Bench

/-- C69: `random_unique` is fair: every list of distinct elements is chosen by exactly one sequence of draws, where draw `i` is below the
number of elements that are left. -/
theorem C69_shuffle {α : Type} (v w : List α) (hv : v.Nodup) (hw : w.Nodup) (hs : ∀ x ∈ w, x ∈ v) :
    ∃ rnd : ℕ → ℕ, ∀ rnd' : ℕ → ℕ, (∀ i < w.length, rnd' i < v.length - i) →
      ((∃ v', randomUnique rnd' w.length 0 v = .ok v' ∧ v'.Perm v ∧ v'.take w.length = w) ↔ ∀ i < w.length, rnd' i = rnd i) := by
  have hl : w.length ≤ v.length := (hw.subperm hs).length_le
  obtain ⟨⟨rnd, h1, v', h2, h3⟩, h4⟩ := shuffle_key w 0 v hv hw (by simpa using hs) (by omega)
  refine ⟨rnd, fun rnd' hd => ⟨?_, fun h => ?_⟩⟩
  · rintro ⟨v'', e1, -, e2⟩ i hi
    exact (h4 rnd' rnd (fun i _ hi => hd i (by omega)) h1 ⟨v'', e1, by simpa using e2⟩ ⟨v', h2, h3⟩ i (by omega) (by omega))
  · rw [randomUnique_congr (rnd := rnd') (rnd' := rnd) _ _ _ (by omega) fun i _ hi => h i (by omega)]
    obtain ⟨v'', e1, e2⟩ := randomUnique_ok rnd w.length 0 v (by omega)
    rw [h2] at e1
    obtain rfl := Except.ok.inj e1
    exact ⟨v', h2, e2, by simpa using h3⟩

section Claims

variable [HashOps Hash32]

/-! ## The forest -/

/-- C69: `AddElementsForest` and `AddElementsWithModifyForest` build, every time, a forest with the leaves; `Modify` returns true. -/
theorem C69_add (withModify : Bool) (N m : ℕ) (hN : N < 2 ^ 31) : ∃ F, addForest withModify N m = .ok (List.replicate m (true, F)) ∧
    Ram.Represents F (hashesOf (sizeOf N 64)) := by
  have hn : sizeOf N 64 < 2 ^ 31 := sizeOf_lt hN (by omega)
  obtain ⟨u, F, p, e1, -, -, -, e2⟩ := modify_ok hn
  obtain ⟨F', st, f1, -, f2⟩ := add_ok hn
  unfold addForest
  rw [size_ok hN, ok_bind]
  dsimp only
  cases withModify with
  | true =>
    refine ⟨F, ?_, e2⟩
    rw [runs_const (a := (true, F)) (by rw [if_pos rfl, e1]; rfl)]
    rfl
  | false =>
    refine ⟨F', ?_, f2⟩
    rw [runs_const (a := (true, F')) (by rw [if_neg (by simp), f1]; rfl)]
    rfl

/-- C69: `ProveElementsForest` proves, every time, as many distinct leaves as it says, half of those in the forest. -/
theorem C69_prove (rnd : ℕ → ℕ) (N m : ℕ) (hN : N < 2 ^ 30) : ∃ (idx : List ℕ) (proof : BatchProof Hash32),
    proveForest rnd N m = .ok (idx.map setHash, List.replicate m (some proof)) ∧ Chosen rnd (sizeOf N 32) idx ∧ proof.targets = idx := by
  have hk : sizeOf N 32 < 2 ^ 30 := sizeOf_lt hN (by omega)
  obtain ⟨u, F, p, e1, -, -, e2, e3⟩ := modify_ok (n := sizeOf N 32 * 2) (by omega)
  obtain ⟨w, idx, c1, c2, c3, c4, c5, c6⟩ := choose_ok rnd _ hk
  obtain ⟨proof, p1, p2, -⟩ := prove_ok (by omega) e2 e3 c4 c5
  refine ⟨idx, proof, ?_, ⟨c3, c4, c5, c6⟩, p2⟩
  unfold proveForest
  rw [size_ok (by omega), ok_bind, twice_ok hk, ok_bind]
  dsimp only
  rw [e1, ok_bind]
  dsimp only
  rw [c1, ok_bind, c2, ok_bind, runs_const (a := some proof) (by rw [p1]; rfl)]
  rfl

/-- C69: `VerifyElementsForest` verifies as many distinct leaves as it says, and `Verify` returns true every time. -/
theorem C69_verify (rnd : ℕ → ℕ) (N m : ℕ) (hN : N < 2 ^ 30) : ∃ idx : List ℕ,
    verifyForest rnd N m = .ok (idx.map setHash, List.replicate m true) ∧ Chosen rnd (sizeOf N 32) idx := by
  have hk : sizeOf N 32 < 2 ^ 30 := sizeOf_lt hN (by omega)
  obtain ⟨u, F, p, e1, -, -, e2, e3⟩ := modify_ok (n := sizeOf N 32 * 2) (by omega)
  obtain ⟨w, idx, c1, c2, c3, c4, c5, c6⟩ := choose_ok rnd _ hk
  obtain ⟨proof, p1, p2, -⟩ := prove_ok (by omega) e2 e3 c4 c5
  refine ⟨idx, ?_, c3, c4, c5, c6⟩
  unfold verifyForest
  rw [size_ok (by omega), ok_bind, twice_ok hk, ok_bind]
  dsimp only
  rw [e1, ok_bind]
  dsimp only
  rw [c1, ok_bind, c2, ok_bind, p1, ok_bind]
  rw [runs_const (a := true) (by rw [C68_forest F _ e2 _ _ (.refl _) proof _ p1]; rfl)]
  rfl

/-- C69: `RemoveElementsForest` removes, every time, the chosen leaves and keeps the others; `Modify` returns true. -/
theorem C69_remove (rnd : ℕ → ℕ) (N m : ℕ) (hN : N < 2 ^ 30) : ∃ (idx : List ℕ) (F : RamForest Hash32) (L : List Hash32),
    removeForest rnd N m = .ok (idx.map setHash, List.replicate m (true, F)) ∧ Chosen rnd (sizeOf N 32) idx ∧
      Ram.Represents F L ∧ L.Perm ((hashesOf (sizeOf N 32 * 2)).filter fun h => h ∉ idx.map setHash) := by
  have hk : sizeOf N 32 < 2 ^ 30 := sizeOf_lt hN (by omega)
  obtain ⟨F0, st, e1, e2, e3⟩ := add_ok (n := sizeOf N 32 * 2) (by omega)
  obtain ⟨w, idx, c1, c2, c3, c4, c5, c6⟩ := choose_ok rnd _ hk
  obtain ⟨proof, p1, p2, p3, p4⟩ := prove_ok (by omega) e2 e3 c4 c5
  obtain ⟨u, F, L, m1, -, m3, K, m4, m5⟩ := C18_modify F0 st e2 _ e3 [] proof.sorted
    ⟨p3, fun t ht => by rw [hashesOf_length]; exact c5 t (p4.mem_iff.1 ht), by simp, by simp, fun _ => by rw [hashesOf_length]; omega, by
      rw [hashesOf_length]; simp only [List.map_nil, List.length_nil]; omega⟩
  refine ⟨idx, F, L, ?_, ⟨c3, c4, c5, c6⟩, m3, ?_⟩
  · unfold removeForest
    rw [size_ok (by omega), ok_bind, twice_ok hk, ok_bind]
    dsimp only
    rw [c1, ok_bind, c2, ok_bind, e1, ok_bind, p1, ok_bind]
    have : proofOf (some proof) = proof := rfl
    rw [this, runs_const (a := (true, F)) (by rw [ok_bind, m1]; rfl)]
    rfl
  · rw [m5, List.map_nil, List.append_nil]
    refine m4.trans ?_
    have hfil : survivors (hashesOf (sizeOf N 32 * 2)) proof.sorted =
        (hashesOf (sizeOf N 32 * 2)).filter fun h => h ∉ idx.map setHash := by
      rw [Pol.survivors_filter (dels := idx.map setHash) (nodup_of_run e2 e3)]
      · apply List.filter_congr
        intro x _
        exact not_contains x _
      intro x
      constructor
      · intro hx
        obtain ⟨i, hi, rfl⟩ := List.mem_map.1 hx
        exact ⟨i, p4.mem_iff.2 hi, hashesOf_get (c5 i hi)⟩
      · rintro ⟨t, ht, hx⟩
        have := p4.mem_iff.1 ht
        rw [hashesOf_get (c5 t this)] at hx
        rw [← Option.some.inj hx]
        exact List.mem_map_of_mem this
    rw [hfil]

/-- C69: `RestoreFromDiskForest` restores, every time, a forest with all leaves from its file, and its `assert` holds. -/
theorem C69_restore (big : Bool) (N m : ℕ) (hN : N < 2 ^ 31) : ∃ Fs, restoreForest big N m = .ok Fs ∧ Fs.length = m ∧
    ∀ F ∈ Fs, Ram.Represents F (hashesOf (sizeOf N 64)) := by
  have hn : sizeOf N 64 < 2 ^ 31 := sizeOf_lt hN (by omega)
  obtain ⟨u, F, p, e1, -, -, e2, e3⟩ := modify_ok hn
  have hl : (hashesOf (sizeOf N 64)).length < 2 ^ 31 := by rw [hashesOf_length]; exact hn
  -- the file always holds some forest with these leaves
  have key : ∀ (m : ℕ) (s : RamForest Hash32) (st : List (UndoBatch Hash32 × RamForest Hash32)) (old file : List Byte), Ram.Run s st →
      Ram.Represents s (hashesOf (sizeOf N 64)) → File.commit big s old = .ok file →
      ∃ Fs file', runs (restoreBody big (sizeOf N 64)) m file = .ok (Fs, file') ∧ Fs.length = m ∧
        ∀ F ∈ Fs, Ram.Represents F (hashesOf (sizeOf N 64)) := by
    intro m
    induction m with
    | zero => intro s st old file _ _ _; exact ⟨[], file, rfl, rfl, by simp⟩
    | succ m ih =>
      intro s st old file hr hL hc
      obtain ⟨bytes, s', -, f2, f3, f4, -⟩ := C31_file hr hL hl old big big
      rw [hc] at f2
      obtain rfl := Except.ok.inj f2
      have hre := C31_reopen hr (by rw [hL.count]; exact hl) old big big
      rw [hc, ok_bind, f3] at hre
      have hr' : Ram.Run s' [] := Ram.Run.reopen hr hre.symm (by simp) (by simp)
      obtain ⟨bytes', s'', -, g2, -⟩ := C31_file hr' f4 hl (bytes ++ old.drop bytes.length) big big
      obtain ⟨Fs, file', k1, k2, k3⟩ := ih s' [] _ _ hr' f4 g2
      refine ⟨s' :: Fs, file', ?_, by simp [k2], ?_⟩
      · unfold runs
        have hb : restoreBody big (sizeOf N 64) (bytes ++ old.drop bytes.length) =
            .ok (s', bytes' ++ (bytes ++ old.drop bytes.length).drop bytes'.length) := by
          unfold restoreBody
          rw [f3, ok_bind, cassert_true (by rw [f4.count, hashesOf_length]; simp), ok_bind, g2, ok_bind]
          rfl
        rw [hb, ok_bind]
        dsimp only
        rw [k1]
        rfl
      · intro F hF
        rcases List.mem_cons.1 hF with rfl | hF
        · exact f4
        · exact k3 F hF
  obtain ⟨s, s', file, c1, -⟩ := C31_create big big
  have hs : s = Ram.mk 0 := by
    unfold File.create at c1
    obtain ⟨x, -, hx⟩ := bind_eq_ok.1 c1
    exact (Prod.ext_iff.1 (Except.ok.inj hx)).1.symm
  subst hs
  obtain ⟨bytes, s', -, f2, -⟩ := C31_file e2 e3 hl file big big
  obtain ⟨Fs, file', k1, k2, k3⟩ := key m F _ file _ e2 e3 f2
  refine ⟨Fs, ?_, k2, k3⟩
  unfold restoreForest
  rw [size_ok hN, ok_bind]
  dsimp only
  rw [c1, ok_bind]
  dsimp only
  rw [e1, ok_bind]
  dsimp only
  rw [f2, ok_bind, k1]
  rfl

/-- C69: the sizes are limited by `int`; beyond that the behaviour is undefined. -/
theorem C69_limit (rnd : ℕ → ℕ) (N m : ℕ) : (2 ^ 30 ≤ N → proveForest rnd N m = .error .ub ∧ verifyForest rnd N m = .error .ub ∧
      removeForest rnd N m = .error .ub ∧ verifyPollard rnd N m = .error .ub) ∧
    (2 ^ 31 ≤ N → ∀ b, addForest b N m = .error .ub ∧ restoreForest b N m = .error .ub ∧ addPollard N m = .error .ub ∧
      restorePollard N m = .error .ub) := by
  have h1 : 2 ^ 31 ≤ N → ∀ d, size N d = .error .ub := fun h d => by
    unfold size
    rw [if_pos (by omega), if_neg (by omega)]
  constructor
  · intro h
    have h2 : (size N 32 >>= twice) = .error .ub := by
      by_cases hN : N < 2 ^ 31
      · rw [size_ok hN, ok_bind]
        have : Bench.sizeOf N 32 = N := if_pos (by omega)
        rw [this]
        unfold twice
        rw [if_neg (by omega)]
      · rw [h1 (by omega), error_bind]
    have h3 : ∀ {α : Type} (f : ℕ → ℕ → Res α), (size N 32 >>= fun k => twice k >>= f k) = .error .ub := by
      intro α f
      cases e : size N 32 with
      | error x => rw [e, error_bind] at h2; rw [error_bind]; rw [Except.error.inj h2]
      | ok k =>
        rw [e, ok_bind] at h2
        rw [ok_bind, h2, error_bind]
    exact ⟨h3 _, h3 _, h3 _, h3 _⟩
  · intro h b
    have h3 : ∀ {α : Type} (f : ℕ → Res α), (size N 64 >>= f) = .error .ub := by
      intro α f
      rw [h1 h, error_bind]
    exact ⟨h3 _, h3 _, h3 _, h3 _⟩

/-! ## The pollard -/

/-- C69: `AddElementsPollard` builds, every time, a pollard with the roots of the forest with these leaves; `Modify` returns true. -/
theorem C69_pollard_add (N m : ℕ) (hN : N < 2 ^ 31) : ∃ p, addPollard N m = .ok (List.replicate m (true, p)) ∧
    p.numLeaves = sizeOf N 64 ∧ Pol.roots p = .ok (merkleRoots HashOps.ph (leafFn HashOps.zero (hashesOf (sizeOf N 64))) (sizeOf N 64)) := by
  have hn : sizeOf N 64 < 2 ^ 31 := sizeOf_lt hN (by omega)
  obtain ⟨u, F, p, -, e1, e2, -, e3⟩ := modify_ok hn
  obtain ⟨a1, rs, a2, a3⟩ := C23_agree F _ p e2
  refine ⟨p, ?_, by rw [a1, e3.count, hashesOf_length], ?_⟩
  · unfold addPollard
    rw [size_ok hN, ok_bind]
    dsimp only
    rw [runs_const (a := (true, p)) (by rw [e1]; rfl)]
    rfl
  · rw [a3, ← a2, e3.roots, hashesOf_length]

/-- C69: `RestorePollard` restores, every time, a pollard with the same roots and number of leaves. -/
theorem C69_pollard_restore (N m : ℕ) (hN : N < 2 ^ 31) : ∃ rs p, restorePollard N m = .ok (rs, List.replicate m p) ∧
    p.numLeaves = sizeOf N 64 ∧ Pol.roots p = .ok rs ∧
    rs = merkleRoots HashOps.ph (leafFn HashOps.zero (hashesOf (sizeOf N 64))) (sizeOf N 64) := by
  have hn : sizeOf N 64 < 2 ^ 31 := sizeOf_lt hN (by omega)
  obtain ⟨u, F, p, -, e1, e2, e4, e3⟩ := modify_ok hn
  obtain ⟨a1, rs, a2, a3⟩ := C23_agree F _ p e2
  obtain ⟨rs', p', b1, b2, b3, b4, -⟩ := C29_restore F _ e4
  rw [a2] at b1
  obtain rfl := Except.ok.inj b1
  have hc : F.numLeaves = sizeOf N 64 := by rw [e3.count, hashesOf_length]
  rw [hc] at b2 b4
  refine ⟨rs, p', ?_, b4, b3, ?_⟩
  · unfold restorePollard
    rw [size_ok hN, ok_bind]
    dsimp only
    rw [e1, ok_bind]
    dsimp only
    rw [a3, ok_bind, runs_const (a := p') (by rw [b2]; rfl)]
    rfl
  · have := e3.roots
    rw [a2, hashesOf_length] at this
    exact Except.ok.inj this

open Pol in
/-- C69, the part of the claim about `VerifyElementsPollard` that holds: it verifies a proof of as many distinct leaves as it says, in the
order in which they were chosen, and `Verify` returns true every time if they were chosen in ascending order, otherwise false every time,
as long as no collision of the parent hash is in plain view. Missing: that it returns true, which is false, see `C69_witness`. -/
theorem C69_pollard_verify_partial (rnd : ℕ → ℕ) (N m : ℕ) (hN : N < 2 ^ 30) : ∃ idx : List ℕ, Chosen rnd (sizeOf N 32) idx ∧ ∃ j ≤ m, ∃ rs p, verifyPollard rnd N j = .ok (idx.map setHash, rs, p) ∧
      ((j = m ∧ rs = List.replicate m (decide (idx.Pairwise (· < ·)))) ∨ Collision p (hashesOf (sizeOf N 32 * 2))) := by
  have hk : sizeOf N 32 < 2 ^ 30 := sizeOf_lt hN (by omega)
  obtain ⟨u, F, p, e1, e2, e3, e4, e5⟩ := modify_ok (n := sizeOf N 32 * 2) (by omega)
  obtain ⟨w, idx, c1, c2, c3, c4, c5, c6⟩ := choose_ok rnd _ hk
  obtain ⟨proof, p1, p2, p3, p4⟩ := prove_ok (by omega) e4 e5 c4 c5
  refine ⟨idx, ⟨c3, c4, c5, c6⟩, ?_⟩
  have hmap : (idx.map setHash).map some = idx.map fun t => (hashesOf (sizeOf N 32 * 2))[t]? := by
    rw [List.map_map]
    apply List.map_congr_left
    intro i hi
    exact (hashesOf_get (c5 i hi)).symm
  have hiff : ((idx.map setHash).map some = proof.sorted.map fun t => (hashesOf (sizeOf N 32 * 2))[t]?) ↔ idx.Pairwise (· < ·) := by
    constructor
    · intro h
      rw [positions_inj (nodup_of_run e4 e5) hmap.symm h.symm]
      exact p3
    · intro h
      have : proof.sorted = idx := List.Perm.eq_of_pairwise (fun a b _ _ h1 h2 => by omega) p3 h p4
      rw [this, hmap]
  have step : ∀ q, Sync F [(u, Ram.mk 0)] q → ∃ b q', verify q proof (idx.map setHash) = .ok (b, q') ∧
      ((b = decide (idx.Pairwise (· < ·)) ∧ Sync F [(u, Ram.mk 0)] q') ∨ Collision q' (hashesOf (sizeOf N 32 * 2))) := by
    intro q hq
    by_cases h : idx.Pairwise (· < ·)
    · obtain ⟨q', h1, h2, h3⟩ := C24_complete F _ q hq _ e5 _ proof p1 _ (hiff.2 h)
      exact ⟨true, q', h1, .inl ⟨by simp [h], h3⟩⟩
    · obtain ⟨b, q', h1, h2⟩ := C68_other F _ q hq _ e5 _ proof p1 (idx.map setHash) (fun e => h (hiff.1 e))
      refine ⟨b, q', h1, ?_⟩
      cases b with
      | true => exact .inr (h2 rfl)
      | false => exact .inl ⟨by simp [h], Sync.verify hq e5 h1 (by simp)⟩
  have key : ∀ (m : ℕ) (q : Pollard Hash32), Sync F [(u, Ram.mk 0)] q → ∃ j ≤ m, ∃ rs q',
      runs (fun q => verify q proof (idx.map setHash)) j q = .ok (rs, q') ∧
      ((j = m ∧ rs = List.replicate m (decide (idx.Pairwise (· < ·)))) ∨ Collision q' (hashesOf (sizeOf N 32 * 2))) := by
    intro m
    induction m with
    | zero => intro q _; exact ⟨0, le_rfl, [], q, rfl, .inl ⟨rfl, rfl⟩⟩
    | succ m ih =>
      intro q hq
      obtain ⟨b, q1, h1, h2 | h2⟩ := step q hq
      · obtain ⟨j, hj, rs, q', k1, k2⟩ := ih q1 h2.2
        refine ⟨j + 1, by omega, b :: rs, q', ?_, ?_⟩
        · unfold runs
          rw [h1, ok_bind]
          dsimp only
          rw [k1]
          rfl
        · rcases k2 with ⟨rfl, k2⟩ | k2
          · exact .inl ⟨rfl, by rw [k2, h2.1]; rfl⟩
          · exact .inr k2
      · refine ⟨1, by omega, [b], q1, ?_, .inr h2⟩
        unfold runs
        rw [h1]
        rfl
  obtain ⟨j, hj, rs, q', k1, k2⟩ := key m p e3
  refine ⟨j, hj, rs, q', ?_, k2⟩
  unfold verifyPollard
  rw [size_ok (by omega), ok_bind, twice_ok hk, ok_bind]
  dsimp only
  rw [e1, ok_bind]
  dsimp only
  rw [e2, ok_bind]
  dsimp only
  rw [c1, ok_bind, c2, ok_bind, p1, ok_bind]
  have : proofOf (some proof) = proof := rfl
  rw [this, k1]
  rfl

end Claims

/-! ## Concrete cases -/

section Examples

attribute [local instance] shaOps

/-- The claim about `VerifyElementsPollard` is false: four leaves, of which number 1 and then number 0 are chosen. `Verify` returns false
every time, with the real hash function. -/
theorem C69_witness : (verifyPollard (fun i => 1 - i) 2 3).map (fun x => (x.1, x.2.1)) = .ok ([setHash 1, setHash 0], [false, false, false]) := by
  decide +kernel

/-- The other order of the same leaves is accepted. -/
example : (verifyPollard (fun _ => 0) 2 3).map (fun x => (x.1, x.2.1)) = .ok ([setHash 0, setHash 1], [true, true, true]) := by
  decide +kernel

/-- The forest accepts any order. -/
example : verifyForest (fun i => 1 - i) 2 3 = .ok ([setHash 1, setHash 0], [true, true, true]) := by decide +kernel

/-- Three of six leaves are removed, twice. -/
example : (removeForest (fun i => 4 + i) 3 2).map (fun x => (x.1, x.2.map fun y => (y.1, y.2.numLeaves))) =
    .ok ([setHash 4, setHash 1, setHash 0], [(true, 3), (true, 3)]) := by decide +kernel

example : (restoreForest true 3 2).map (fun x => x.map fun y => y.numLeaves) = .ok [3, 3] := by decide +kernel

example : randomUnique (fun i => 7 * i + 3) 3 0 [0, 1, 2, 3, 4] = .ok [3, 0, 4, 1, 2] := by decide +kernel

end Examples

end Utreexo
