import Verif.Proof.Work
import Verif.Proof.WorkKnown
import Verif.Props.Pollard

/-!
# C72 and C73: the cost of a block and of a verification

`Ram.modifyC` and `Pol.modifyC` are `Modify` with virtual functions that count their calls, `Pol.verifyC` is `Verify` with the number
of parent hashes (`Verif/Model/Work.lean`).
-/

set_option linter.unusedSectionVars false

namespace Utreexo
open Spec

/-- Number of trees of a forest with `n` leaves. -/
def treesOf (n : ℕ) : ℕ := (treeRows n 64).length

/-- The calls made for a block that deletes `k` of `n` leaves and then adds `a` leaves. -/
structure Spent (n k a : ℕ) (w : Work) : Prop where
  leaves : w.leaves = a
  merges : w.merges + treesOf (n - k + a) = treesOf (n - k) + a
  swaps : ∀ R, n ≤ 2 ^ R → w.swaps ≤ k + R
  rehashes : ∀ R, n ≤ 2 ^ R → w.rehashes ≤ k * R
  idle : k = 0 → w.swaps = 0

section Claims
variable {H : Type} [DecidableEq H] [HashOps H]

theorem Spent.of {n : ℕ} {leaves : List (Leaf H)} {D : List ℕ} {w : Work} (hn : n ≤ 2 ^ 62) (ht : n - D.length + leaves.length ≤ 2 ^ 62)
    (h : Acc.BlockCost n leaves D {} w) : Spent n D.length leaves.length w := by
  have hR : ∀ R, n ≤ 2 ^ R → St.numRows n ≤ R := fun R hR => (numRows_le_iff (by omega) R).2 hR
  refine ⟨?_, ?_, fun R h1 => ?_, fun R h1 => ?_, fun h1 => h.idle (List.eq_nil_of_length_eq_zero h1)⟩
  · simpa using h.leaves
  · unfold treesOf
    rw [ones_trees (by omega), ones_trees (by omega)]
    simpa using h.merges
  · have h2 := h.swaps.2
    have h3 := hR R h1
    simp only [Nat.zero_add] at h2
    omega
  · have h2 := h.rehashes.2
    have h3 := Nat.mul_le_mul_left D.length (hR R h1)
    simp only [Nat.zero_add] at h2
    omega

/-- C72: counting does not change what a forest does. -/
theorem C72_forest_same (F : RamForest H) (w : Work) (leaves : List (Leaf H)) (D : List ℕ) (hn : F.numLeaves ≤ 2 ^ 62)
    (ht : F.numLeaves - D.length + leaves.length ≤ 2 ^ 62) :
    (Ram.modifyC (F.withWork w) leaves D).map (fun r => (r.1, r.2.1, r.2.2.plain)) = Ram.modify F leaves D := by
  have h := Ram.modify_work F w leaves D hn ht
  revert h
  generalize Ram.modifyC (F.withWork w) leaves D = x
  generalize Ram.modify F leaves D = y
  intro h
  cases h with
  | error e => rfl
  | ok h => obtain ⟨w', rfl, -⟩ := h; rfl

/-- C72: counting does not change what a pollard does. -/
theorem C72_pollard_same (p : Pollard H) (w : Work) (leaves : List (Leaf H)) (D : List ℕ) (hn : p.numLeaves ≤ 2 ^ 62)
    (ht : p.numLeaves - D.length + leaves.length ≤ 2 ^ 62) :
    (Pol.modifyC (p.withWork w) leaves D).map (fun r => (r.1, r.2.plain)) = Pol.modify p leaves D := by
  have h := Pol.modify_work p w leaves D hn ht
  revert h
  generalize Pol.modifyC (p.withWork w) leaves D = x
  generalize Pol.modify p leaves D = y
  intro h
  cases h with
  | error e => rfl
  | ok h => obtain ⟨w', rfl, -⟩ := h; rfl

/-- C72 for forests. -/
theorem C72_forest (F F' : RamForest H) (leaves : List (Leaf H)) (D : List ℕ) (u : Option (UndoBatch H)) (hn : F.numLeaves ≤ 2 ^ 62)
    (ht : F.numLeaves - D.length + leaves.length ≤ 2 ^ 62) (h : Ram.modify F leaves D = .ok (true, u, F')) :
    ∃ w, Ram.modifyC (F.withWork {}) leaves D = .ok (true, u, F'.withWork w) ∧ Spent F.numLeaves D.length leaves.length w := by
  obtain ⟨a, h1, w, rfl, h2⟩ := (Ram.modify_work F {} leaves D hn ht).left h
  exact ⟨w, h1, .of hn ht (h2 rfl)⟩

/-- C72 for pollards. -/
theorem C72_pollard (p p' : Pollard H) (leaves : List (Leaf H)) (D : List ℕ) (hn : p.numLeaves ≤ 2 ^ 62)
    (ht : p.numLeaves - D.length + leaves.length ≤ 2 ^ 62) (h : Pol.modify p leaves D = .ok (true, p')) :
    ∃ w, Pol.modifyC (p.withWork {}) leaves D = .ok (true, p'.withWork w) ∧ Spent p.numLeaves D.length leaves.length w := by
  obtain ⟨a, h1, w, rfl, -, h2⟩ := (Pol.modify_work p {} leaves D hn ht).left h
  exact ⟨w, h1, .of hn ht (h2 rfl)⟩

/-- C72: a pollard that refuses a block has not called any of these functions. -/
theorem C72_refused (p p' : Pollard H) (leaves : List (Leaf H)) (D : List ℕ) (hn : p.numLeaves ≤ 2 ^ 62)
    (ht : p.numLeaves - D.length + leaves.length ≤ 2 ^ 62) (h : Pol.modify p leaves D = .ok (false, p')) :
    Pol.modifyC (p.withWork {}) leaves D = .ok (false, p'.withWork {}) := by
  obtain ⟨a, h1, w, rfl, h2, -⟩ := (Pol.modify_work p {} leaves D hn ht).left h
  rw [h1, h2 rfl]

/-- C72: every valid block of a forest with a history. -/
theorem C72_block (F : RamForest H) (st : List (UndoBatch H × RamForest H)) (h : Ram.Run F st) (L : List H) (hL : Ram.Represents F L)
    (leaves : List (Leaf H)) (D : List ℕ) (hv : Ram.Valid L (leaves.map Prod.fst) D) :
    ∃ u F' w, Ram.modifyC (F.withWork {}) leaves D = .ok (true, some u, F'.withWork w) ∧
      Ram.modify F leaves D = .ok (true, some u, F') ∧ Spent L.length D.length leaves.length w := by
  obtain ⟨n, f, h1, h2, h3⟩ := h.inv
  have e := hL.unique (h1.represents h2)
  have hlen : L.length = n := by rw [e]; simp
  have hv' := hv
  rw [e] at hv'
  obtain ⟨F', g, k1, -⟩ := Ram.modify_step h1 h2 h3 hv'
  have hnum : F.numLeaves = L.length := hL.count
  have hT := hv.total
  simp only [List.length_map] at hT
  obtain ⟨w, w1, w2⟩ := C72_forest F F' leaves D _ (by rw [hnum, hlen]; exact h2) (by rw [hnum]; exact hT) k1
  exact ⟨_, F', w, w1, k1, hnum ▸ w2⟩

/-- C73: counting does not change what `Verify` does. -/
theorem C73_same (F : RamForest H) (st : List (UndoBatch H × RamForest H)) (p : Pollard H) (h : Pol.Sync F st p) (proof : BatchProof H)
    (hs : List H) : (Pol.verifyC p proof hs).map Prod.fst = Pol.verify p proof hs := by
  obtain ⟨L, A, S⟩ := h.inv
  have h := Pol.verify_work S.inv S.len proof hs
  revert h
  generalize Pol.verifyC p proof hs = x
  generalize Pol.verify p proof hs = y
  intro h
  cases h with
  | error e => rfl
  | ok h => exact congrArg Except.ok h.1

/-- What is used of `Pol.verify_work`. -/
theorem verify_count {F : RamForest H} {st : List (UndoBatch H × RamForest H)} {p : Pollard H} (h : Pol.Sync F st p) {L : List H}
    (hL : Ram.Represents F L) {proof : BatchProof H} {hs : List H} {b : Bool} {p' : Pollard H} {c : ℕ}
    (hv : Pol.verifyC p proof hs = .ok ((b, p'), c)) (hc : c ≠ 0) :
    Pol.verify p proof hs = .ok (b, p') ∧ c ≤ Pol.computed L.length proof.sorted 1 66 ∧ Pol.Sane L.length proof.sorted ∧
      hs.length = proof.targets.length ∧ L.length ≤ 2 ^ 62 := by
  obtain ⟨L', A, S⟩ := h.inv
  obtain rfl := hL.unique S.rep
  have h := Pol.verify_work S.inv S.len proof hs
  rw [hv] at h
  revert h
  generalize Pol.verify p proof hs = y
  intro h
  cases h with
  | ok h => exact ⟨congrArg Except.ok h.1.symm, h.2.1, (h.2.2 hc).1, (h.2.2 hc).2, S.len⟩

/-- C73: whatever the proof says and whatever the outcome, `Verify` computes at most one parent hash for each node that lies above a
target. -/
theorem C73_verify (F : RamForest H) (st : List (UndoBatch H × RamForest H)) (p : Pollard H) (h : Pol.Sync F st p) (L : List H)
    (hL : Ram.Represents F L) (proof : BatchProof H) (hs : List H) (b : Bool) (p' : Pollard H) (c : ℕ)
    (hv : Pol.verifyC p proof hs = .ok ((b, p'), c)) :
    ∃ nodes : List (ℕ × ℕ), nodes.Nodup ∧ (∀ r k, (r, k) ∈ nodes → 1 ≤ r ∧ Above L.length proof.sorted r k) ∧ c = nodes.length := by
  by_cases hc : c = 0
  · subst hc; exact ⟨[], List.nodup_nil, by simp, rfl⟩
  obtain ⟨-, h1, hS, -⟩ := verify_count h hL hv hc
  obtain ⟨l, k1, k2, k3⟩ := Pol.computed_above hS
  refine ⟨l.take c, k1.sublist (List.take_sublist _ _), fun r k hk => (k3 r k).1 (List.mem_of_mem_take hk), ?_⟩
  rw [List.length_take]
  omega

/-- C73: never more parent hashes than the heights of the trees in which the targets lie add up to, and fewer than there are leaves. -/
theorem C73_bound (F : RamForest H) (st : List (UndoBatch H × RamForest H)) (p : Pollard H) (h : Pol.Sync F st p) (L : List H)
    (hL : Ram.Represents F L) (proof : BatchProof H) (hs : List H) (b : Bool) (p' : Pollard H) (c : ℕ)
    (hv : Pol.verifyC p proof hs = .ok ((b, p'), c)) :
    (∀ height : ℕ → ℕ, (∀ t ∈ proof.sorted, InTree L.length (height t) t) → c ≤ (proof.sorted.map height).sum) ∧
    c ≤ proof.sorted.length * Nat.log2 L.length ∧ (c ≠ 0 → c < L.length) := by
  have key : ∀ height : ℕ → ℕ, (∀ t ∈ proof.sorted, InTree L.length (height t) t) → c ≤ (proof.sorted.map height).sum := by
    intro height hh
    obtain ⟨l, k1, k2, rfl⟩ := C73_verify F st p h L hL proof hs b p' c hv
    exact Pol.above_heights k1 k2 height hh
  refine ⟨key, ?_, fun hc => ?_⟩
  · by_cases hc : c = 0
    · omega
    obtain ⟨-, -, hS, -⟩ := verify_count h hL hv hc
    have hex : ∀ t, ∃ r, t ∈ proof.sorted → InTree L.length r t := by
      intro t
      by_cases ht : t ∈ proof.sorted
      · obtain ⟨r, hr⟩ := exists_tree (hS.lt t ht)
        exact ⟨r, fun _ => hr⟩
      · exact ⟨0, fun h => absurd h ht⟩
    choose height hh using hex
    refine (key height hh).trans ?_
    have : ∀ x ∈ proof.sorted.map height, x ≤ Nat.log2 L.length := by
      intro x hx
      obtain ⟨t, ht, rfl⟩ := List.mem_map.1 hx
      have h1 := Nat.ge_two_pow_of_testBit (hh t ht).1
      have h2 := hS.lt t ht
      exact (Nat.le_log2 (by omega)).2 h1
    simpa using List.sum_le_card_nsmul _ _ this
  · obtain ⟨-, h1, hS, -, h62⟩ := verify_count h hL hv hc
    have h2 := Pol.above_all hS 0 (Nat.log2 L.length)
    have hpos : L.length ≠ 0 := by
      intro h0
      have h3 := Pol.above_all hS 0 66
      rw [h0] at h3 h1
      simp at h3
      omega
    have h3 := Pol.computed_log hS
    have h4 : 1 ≤ L.length / 2 ^ (0 + Nat.log2 L.length) := by
      rw [Nat.zero_add, Nat.le_div_iff_mul_le (Nat.two_pow_pos _), Nat.one_mul]
      exact Nat.log2_self_le hpos
    simp only [Nat.zero_add, Nat.pow_zero, Nat.div_one] at h2 h4
    omega

/-- C73: no parent hash at all unless there is a hash for each target and the targets are leaves of the forest in order. -/
theorem C73_early (F : RamForest H) (st : List (UndoBatch H × RamForest H)) (p : Pollard H) (h : Pol.Sync F st p) (L : List H)
    (hL : Ram.Represents F L) (proof : BatchProof H) (hs : List H) (b : Bool) (p' : Pollard H) (c : ℕ)
    (hv : Pol.verifyC p proof hs = .ok ((b, p'), c))
    (hbad : hs.length ≠ proof.targets.length ∨ ¬ proof.sorted.Pairwise (· < ·) ∨ ∃ t ∈ proof.sorted, L.length ≤ t) : c = 0 := by
  by_contra hc
  obtain ⟨-, -, hS, h2, -⟩ := verify_count h hL hv hc
  rcases hbad with hb | hb | ⟨t, ht, hb⟩
  · exact hb h2
  · exact hb hS.sorted
  · have := hS.lt t ht
    omega

/-- C73: a pollard that has no hashes besides its roots computes exactly one parent hash for each node above a target, if it accepts. -/
theorem C73_exact (F : RamForest H) (st : List (UndoBatch H × RamForest H)) (p : Pollard H) (h : Pol.Sync F st p) (L : List H)
    (hL : Ram.Represents F L) (hbare : ∀ r k, InForest L.length (r + 1) (k / 2) → Pol.read p (Pol.at' L r k) = .ok none)
    (proof : BatchProof H) (hs : List H) (p' : Pollard H) (ht : proof.targets ≠ []) (hv : Pol.verify p proof hs = .ok (true, p')) :
    ∃ nodes : List (ℕ × ℕ), nodes.Nodup ∧ (∀ r k, (r, k) ∈ nodes ↔ 1 ≤ r ∧ Above L.length proof.sorted r k) ∧
      Pol.verifyC p proof hs = .ok ((true, p'), nodes.length) := by
  obtain ⟨L', A, S⟩ := h.inv
  obtain rfl := hL.unique S.rep
  have hl : ∀ r x, Pol.rtOf L.length r x = false → A r x = none := by
    intro r x hr
    by_cases hx : x < L.length / 2 ^ r
    · have h1 : x / 2 < L.length / 2 ^ (r + 1) := by
        by_contra hc
        rw [(Pol.rtOf_iff hx).2 hc] at hr
        cases hr
      have h2 := hbare r x (Pol.inForest_div.2 h1)
      rw [S.inv.read_at S.len hx] at h2
      cases e : A r x with
      | none => rfl
      | some a =>
        rw [e, Option.map_some, Except.ok.injEq] at h2
        exact absurd h2 (Option.some_ne_none _)
    · exact S.inv.out r x hx
  obtain ⟨⟨a, c⟩, e1, rfl, e2⟩ := (Pol.verify_exact S.inv S.len hl proof hs ht).left hv
  obtain ⟨e3, hS⟩ := e2 rfl
  obtain ⟨l, k1, k2, k3⟩ := Pol.computed_above hS
  have e4 : c = l.length := Eq.trans e3 k2.symm
  exact ⟨l, k1, k3, by rw [e1, e4]⟩

/-- C73: a pollard that was restored from roots is such a pollard. -/
theorem C73_restored (F : RamForest H) (st : List (UndoBatch H × RamForest H)) (hF : Ram.Run F st) (L : List H)
    (hL : Ram.Represents F L) (rs : List H) (hrs : Ram.roots F = .ok rs) (p : Pollard H) (hp : Pol.fromRoots rs F.numLeaves = .ok p) :
    ∀ r k, InForest L.length (r + 1) (k / 2) → Pol.read p (Pol.at' L r k) = .ok none := by
  intro r k hk
  obtain ⟨L', hL', -, hlen⟩ := C16_represents F st hF
  obtain rfl := hL.unique hL'
  rw [hL.roots] at hrs
  obtain rfl := Except.ok.inj hrs
  rw [hL.count] at hp
  obtain ⟨s, e1, e2, -⟩ := Pol.fromRoots_ok hlen (leafFn HashOps.zero L)
  rw [e1] at hp
  obtain rfl := Except.ok.inj hp
  have h1 := Pol.inForest_div.1 hk
  have h2 : k < L.length / 2 ^ r := by
    rw [Nat.pow_succ, ← Nat.div_div_eq_div_mul] at h1
    omega
  rw [e2.read_at hlen h2]
  have h3 := Pol.rtOf_false h1
  unfold Pol.rootAddr
  rw [h3]
  rfl

/-- C73: if the pollard has the children of all nodes above the targets, `Verify` computes no parent hash, whatever the outcome. -/
theorem C73_known (F : RamForest H) (st : List (UndoBatch H × RamForest H)) (p : Pollard H) (h : Pol.Sync F st p) (L : List H)
    (hL : Ram.Represents F L) (proof : BatchProof H) (hs : List H)
    (hk : ∀ r k, Above L.length proof.sorted (r + 1) (k / 2) → Pol.read p (Pol.at' L r k) ≠ .ok none) (b : Bool) (p' : Pollard H) (c : ℕ)
    (hv : Pol.verifyC p proof hs = .ok ((b, p'), c)) : c = 0 := by
  obtain ⟨L', A, S⟩ := h.inv
  obtain rfl := hL.unique S.rep
  have h := Pol.verify_known S.inv S.len proof hs (by
    intro hS r x hx
    have hin := Pol.Vn_in hS hx
    rcases (Pol.mem_Vn hS).1 hx with h1 | ⟨-, h1⟩
    · rw [Pol.mem_Cn hS] at h1
      have h2 := hk r x ⟨Pol.inForest_div.2 h1.1, h1.2⟩
      rw [S.inv.read_at S.len hin] at h2
      cases e : A r x with
      | none => rw [e] at h2; exact absurd rfl h2
      | some a => rfl
    · exact S.inv.ph.shape.root r x h1)
  rw [hv] at h
  revert h
  generalize Pol.verify p proof hs = y
  intro h
  cases h with
  | ok h => exact h.2

/-- C73: what has been verified can be verified again, together or in part and with whatever proof, without a parent hash. -/
theorem C73_again (F : RamForest H) (st : List (UndoBatch H × RamForest H)) (p : Pollard H) (h : Pol.Sync F st p) (L : List H)
    (hL : Ram.Represents F L) (proof : BatchProof H) (hs : List H) (p' : Pollard H) (ht : proof.targets ≠ [])
    (hv : Pol.verify p proof hs = .ok (true, p')) (hc : ¬ Pol.Collision p' L) (proof' : BatchProof H) (hs' : List H)
    (hsub : ∀ t ∈ proof'.sorted, t ∈ proof.sorted) (b : Bool) (p'' : Pollard H) (c : ℕ)
    (hv' : Pol.verifyC p' proof' hs' = .ok ((b, p''), c)) : c = 0 := by
  refine C73_known F st p' (h.verify hL hv fun _ => hc) L hL proof' hs' ?_ b p'' c hv'
  rintro r k ⟨h1, t, h2, h3⟩
  obtain ⟨L', A, S⟩ := h.inv
  obtain rfl := hL.unique S.rep
  rcases Pol.verify_ok S.inv S.len proof hs with ⟨e, -⟩ | ⟨-, h0, -⟩ | ⟨e, -⟩ | ⟨s', e, -⟩ | ⟨s', A1, e, -, ha, -⟩
  · rw [e] at hv; simp at hv
  · exact absurd h0 ht
  · rw [e] at hv; simp at hv
  · rw [e] at hv; simp at hv
  · rw [e] at hv
    obtain ⟨-, rfl⟩ := Prod.mk.inj (Except.ok.inj hv)
    have hV : k ∈ Pol.Vn L.length proof.sorted r :=
      (Pol.mem_Vn ha.sane).2 (.inl ((Pol.mem_Cn ha.sane).2 ⟨Pol.inForest_div.1 h1, t, hsub t h2, h3⟩))
    have hr := ha.ph.read_ok S.len (Pol.Vn_in ha.sane hV)
    have e2 : Pol.read s' (Pol.at' L r k) = .ok ((A1 r k).map fun _ => Pol.cv s'.ext A1 r k) := hr
    rw [e2]
    obtain ⟨a, ea⟩ := Option.isSome_iff_exists.1 (ha.pres r k hV)
    rw [ea]
    intro hcon
    exact absurd (Except.ok.inj hcon) (Option.some_ne_none _)

end Claims

/-- C72: the number of parent hashes of a block. -/
theorem C72_hashes (n k a : ℕ) (w : Work) (h : Spent n k a w) (R : ℕ) (hR : n ≤ 2 ^ R) (hR' : R < 64) :
    w.hashes ≤ k * R + a + R + 1 := by
  have h1 := h.rehashes R hR
  have h2 := h.merges
  have h3 : treesOf (n - k) ≤ R + 1 := by
    unfold treesOf
    rw [treeRows_length]
    have : ((List.range 64).filter (n - k).testBit).length ≤ (List.range (R + 1)).length := by
      apply List.Subperm.length_le
      apply (List.Nodup.filter _ List.nodup_range).subperm
      intro x hx
      obtain ⟨-, hx⟩ := List.mem_filter.1 hx
      rw [List.mem_range]
      by_contra hlt
      have h4 : n - k < 2 ^ x := by
        have := Nat.pow_lt_pow_right (a := 2) (by omega) (show R < x by omega)
        omega
      rw [Nat.testBit_lt_two_pow h4] at hx
      cases hx
    simpa using this
  unfold Work.hashes
  omega

/-- C72: without deletions only the number of leaves counts, not how they are divided into blocks: two blocks cost as many parent
hashes as one. -/
theorem C72_additions (n a b : ℕ) (v w : Work) (hv : Spent n 0 a v) (hw : Spent (n + a) 0 b w) :
    v.hashes + w.hashes + treesOf (n + (a + b)) = treesOf n + (a + b) := by
  have h1 := hv.merges
  have h2 := hw.merges
  have h3 := hv.rehashes (n + a) (le_trans (Nat.le_add_right _ _) Nat.lt_two_pow_self.le)
  have h4 := hw.rehashes (n + a) Nat.lt_two_pow_self.le
  unfold Work.hashes
  simp only [Nat.sub_zero, Nat.zero_mul, Nat.add_assoc] at h1 h2 h3 h4 ⊢
  omega

/-! ## Examples -/

section Examples
attribute [local instance] toyOps

/-- Leaves that are to be remembered. -/
def workLeaves (a k : ℕ) : List (Leaf ℕ) := (List.range' (a + 1) k).map fun i => (i, true)

/-- The calls of the second of two blocks, for a forest and for a pollard that remembers all leaves. -/
def toyWork (k : ℕ) (D : List ℕ) (a : ℕ) : Res (List Work) := do
  let (_, _, F) ← Ram.modify (Ram.mk 0) (workLeaves 0 k) []
  let (_, p) ← Pol.modify (Pol.mk 0) (workLeaves 0 k) []
  let (_, _, F') ← Ram.modifyC (F.withWork {}) (workLeaves k a) D
  let (_, p') ← Pol.modifyC (p.withWork {}) (workLeaves k a) D
  return [F'.ext.2, p'.ext.2]

/-- Deleting the leaf 0 of 17 leaves (5 rows), then adding a leaf: one swap, one hash on each of the rows 1 to 4; the new leaf is
not merged, as there are 16 leaves before it. -/
example : toyWork 17 [0] 1 = .ok [{ leaves := 1, swaps := 1, rehashes := 4 }, { leaves := 1, swaps := 1, rehashes := 4 }] := by
  decide +kernel

/-- Without a leaf 16 that could take its place, nothing is hashed at all: three trees become roots. -/
example : toyWork 8 [0] 0 = .ok [{ swaps := 3 }, { swaps := 3 }] := by decide +kernel

/-- Four deletions. Five leaves are added to the 13 that are left: 3 + 5 - 2 merges. -/
example : toyWork 17 [0, 3, 6, 9] 5 = .ok [{ leaves := 5, merges := 6, swaps := 5, rehashes := 7 },
    { leaves := 5, merges := 6, swaps := 5, rehashes := 7 }] := by decide +kernel

/-- The same block meets the hypotheses of `C72_forest` and `C72_pollard`: it is accepted. -/
example : (do
    let (_, _, F) ← Ram.modify (Ram.mk 0) (workLeaves 0 17) []
    let (_, p) ← Pol.modify (Pol.mk 0) (workLeaves 0 17) []
    let (a, _, F) ← Ram.modify F (workLeaves 17 5) [0, 3, 6, 9]
    let (b, p) ← Pol.modify p (workLeaves 17 5) [0, 3, 6, 9]
    return [(a, F.numLeaves), (b, p.numLeaves)]) = (.ok [(true, 18), (true, 18)] : Res (List (Bool × ℕ))) := by decide +kernel

/-- A pollard restored from the roots of a forest with 17 leaves, and a proof for it. Result, the number of parent hashes, and the number
when the same proof is checked again. -/
def toyCheck (hashes : List ℕ) (wrong : List ℕ → List ℕ) : Res (List (Bool × ℕ)) := do
  let (_, _, F) ← Ram.modify (Ram.mk 0) (workLeaves 0 17) []
  let rs ← Ram.roots F
  let p ← Pol.fromRoots rs 17
  let proof ← Acc.prove Ram.vt F hashes
  match proof with
  | none => return []
  | some proof =>
    let ((a, p), c) ← Pol.verifyC p { proof with hashes := wrong proof.hashes } hashes
    let ((b, _), d) ← Pol.verifyC p { proof with hashes := wrong proof.hashes } hashes
    return [(a, c), (b, d)]

/-- One leaf: four rows. Two neighbours: the same nodes lie above them. The last leaf is a root itself. The second time all hashes are
known, and nothing is computed. -/
example : [toyCheck [1] id, toyCheck [1, 2] id, toyCheck [1, 9] id, toyCheck [17] id] = [.ok [(true, 4), (true, 0)],
    .ok [(true, 4), (true, 0)], .ok [(true, 7), (true, 0)], .ok [(true, 0), (true, 0)]] := by decide +kernel

/-- A wrong proof is noticed at the root, or before anything is hashed if its length is wrong. -/
example : [toyCheck [1] (fun l => l.map (· + 1)), toyCheck [1] (fun l => l.drop 1)] = [.ok [(false, 4), (false, 4)],
    .ok [(false, 0), (false, 0)]] := by decide +kernel

end Examples

end Utreexo
