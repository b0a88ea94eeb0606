import Verif.Model.Tests
import Verif.Props.Bench
import Verif.Props.Fuzz
import Verif.Props.Memory
import Verif.Props.Order
import Verif.Props.Reorg
import Verif.Props.Stale
import Verif.Props.Track
import Verif.Props.Record

/-!
# The test `simple_blockchain`

C78: for every number of blocks, whatever the random numbers are, all checks of the test succeed, or the run exhibits a message of
64 bytes with digest zero or two messages with the same digest.
-/

set_option linter.unusedSectionVars false

namespace Utreexo
open Spec Equiv

variable {H : Type} [DecidableEq H] [HashOps H]

/-! ## `Prove` depends on the leaves only -/

/-- C22: two forests with the same leaves return the same proofs, whatever their histories are. -/
theorem C22_same (s t : RamForest H) (st tt : List (UndoBatch H × RamForest H)) (hs : Ram.Run s st) (ht : Ram.Run t tt) (L : List H)
    (h1 : Ram.Represents s L) (h2 : Ram.Represents t L) (q : List H) : Acc.prove Ram.vt s q = Acc.prove Ram.vt t q := by
  obtain ⟨L', hL', hnd, hlen⟩ := C16_represents s st hs
  obtain rfl := h1.unique hL'
  obtain ⟨r1, e1, e2, e3⟩ := C22_prove s st hs L h1 q
  obtain ⟨r2, f1, f2, f3⟩ := C22_prove t tt ht L h2 q
  rw [e1, f1]
  cases r1 with
  | none =>
    cases r2 with
    | none => rfl
    | some b => simpa using e2.2 (f2.1 rfl)
  | some a =>
    cases r2 with
    | none => simpa using f2.2 (e2.1 rfl)
    | some b =>
      obtain ⟨a1, a2, a3, n1, a4, a5, a6⟩ := e3 a rfl
      obtain ⟨b1, b2, b3, n2, b4, b5, b6⟩ := f3 b rfl
      have hinj : ∀ (x y : List ℕ) (z : List H), x.map (fun t => L[t]?) = z.map some → y.map (fun t => L[t]?) = z.map some → x = y := by
        intro x
        induction x with
        | nil => intro y z hx hy; cases z with
          | nil => symm; simpa using hy
          | cons _ _ => simp at hx
        | cons c x ih => intro y z hx hy; cases z with
          | nil => simp at hx
          | cons d z => cases y with
            | nil => simp at hy
            | cons e y =>
              simp only [List.map_cons, List.cons.injEq] at hx hy
              rw [Pol.get_inj hnd hx.1 hy.1, ih y z hx.2 hy.2]
      have ht : a.targets = b.targets := hinj _ _ _ a1 b1
      have hso : a.sorted = b.sorted :=
        (a3.trans (ht ▸ b3.symm)).eq_of_pairwise (fun x y _ _ h h' => absurd h' (by omega)) a2 b2
      have hn : n1 = n2 := by
        refine List.Perm.eq_of_pairwise (fun x y _ _ h h' => absurd h' (by omega)) a4 b4 ?_
        rw [List.perm_ext_iff_of_nodup]
        · rintro ⟨r, k⟩
          rw [a5, b5, ht]
        · exact a4.imp (fun h e => by rw [e] at h; omega)
        · exact b4.imp (fun h e => by rw [e] at h; omega)
      have hh : a.hashes = b.hashes := by rw [a6, b6, hn]
      cases a; cases b
      simp only at ht hso hh
      rw [ht, hso, hh]

/-- C46: two forests with the same leaves make the same undo batch of a block, whatever their histories are. -/
theorem C46_same (s t : RamForest H) (st tt : List (UndoBatch H × RamForest H)) (hs : Ram.Run s st) (ht : Ram.Run t tt) (L : List H)
    (h1 : Ram.Represents s L) (h2 : Ram.Represents t L) (leaves : List (Leaf H)) (targets : List ℕ)
    (hv : Ram.Valid L (leaves.map Prod.fst) targets) :
    ∃ u s' t', Ram.modify s leaves targets = .ok (true, some u, s') ∧ Ram.modify t leaves targets = .ok (true, some u, t') := by
  obtain ⟨n, f, a1, a2, -⟩ := hs.inv
  obtain ⟨m, g, b1, b2, -⟩ := ht.inv
  have e1 := h1.unique (a1.represents a2)
  have e2 := h2.unique (b1.represents b2)
  have hnm : m = n := by
    have := e1.symm.trans e2
    simpa using (congrArg List.length this).symm
  subst hnm
  have b3 : Ram.Inv t m f := by
    refine b1.congr ?_
    intro x hx
    have := congrArg (fun l : List H => l[x]?) (e1.symm.trans e2)
    simp only [List.getElem?_map, List.getElem?_range hx, Option.map_some, Option.some.injEq] at this
    exact this.symm
  subst e1
  obtain ⟨s', _, k1, -⟩ := Ram.modify_step (st := []) a1 a2 trivial hv
  obtain ⟨t', _, k2, -⟩ := Ram.modify_step (st := []) b3 a2 trivial hv
  exact ⟨_, s', t', k1, k2⟩

/-! ## A pollard that remembers nothing -/

namespace Pol

/-- C41: a pollard that remembers no leaf has nothing but the roots. -/
theorem _root_.Utreexo.C41_bare (F : RamForest H) (st : List (UndoBatch H × RamForest H)) (p : Pollard H) (h : Sync F st p) (L : List H)
    (hL : Ram.Represents F L) (h0 : numCachedLeaves p = 0) (r i : ℕ) (hi : InForest L.length (r + 1) (i / 2)) :
    read p (at' L r i) = .ok none := by
  obtain ⟨L', A, hI, hsp⟩ := h.sparse
  obtain rfl := hL.unique hI.rep
  rw [hI.inv.ph.numCached_ok hI.len, List.countP_eq_zero] at h0
  have key : ∀ q z, z < L.length / 2 ^ q → kidc p.ext (rtOf L.length) A q z = false := by
    intro q
    induction q with
    | zero => intro z hz; simpa using h0 z (by simpa using hz)
    | succ q ih =>
      intro z hz
      by_contra hc
      obtain ⟨c, hc1, hc2⟩ := hsp.step hz (by simpa using hc)
      rw [ih c (kid_in hz hc1)] at hc2
      simp at hc2
  have hz := inForest_iff.1 hi
  have hk := key (r + 1) (i / 2) hz
  simp only [kidc, Bool.or_eq_false_iff] at hk
  have hA : A r i = none := by
    have : i = 2 * (i / 2) ∨ i = 2 * (i / 2) + 1 := by omega
    rcases this with e | e <;> rw [e]
    · simpa using hk.1
    · simpa using hk.2
  rw [hI.inv.read_at hI.len (kid_in hz rfl), hA]; rfl

/-- A rejected proof leaves nothing remembered in a pollard that remembers nothing, if the hashes given are no leaves. -/
theorem held_refused {F : RamForest H} {st : List (UndoBatch H × RamForest H)} {p p' : Pollard H} (h : Held F st p (fun _ => False))
    {L : List H} (hL : Ram.Represents F L) {proof : BatchProof H} {hs : List H} (hv : verify p proof hs = .ok (false, p'))
    (hx : ∀ x ∈ hs, x ∉ L) : Held F st p' (fun _ => False) := by
  obtain ⟨Q', k1, -, k3⟩ := C42_refused F st p p' _ h L hL proof hs hv
  have h0 : numCachedLeaves p = 0 := C42_held F st p _ h [] List.nodup_nil (by simp)
  have e : Q' = fun _ => False := by
    funext x
    apply propext
    refine ⟨fun hq => ?_, False.elim⟩
    obtain ⟨g1, i, t, g2, g3, g4⟩ := k3 x hq id
    obtain ⟨L0, A, hI⟩ := h.sync.inv
    obtain rfl := hL.unique hI.rep
    have ht := (List.getElem?_eq_some_iff.1 g3).1
    have rd : ∀ j, at' L 0 j = j := fun j => by unfold at'; exact posOf_zero _ _
    by_cases hc : InForest L.length 1 (t / 2)
    · -- the sibling would have to be readable
      have hs : t ^^^ 1 < L.length := by
        have := inForest_iff.1 hc
        have := xor_one_cases t
        split at this <;> omega
      obtain ⟨g, hg⟩ : ∃ g, L[t ^^^ 1]? = some g := ⟨_, List.getElem?_eq_getElem hs⟩
      have a1 := g1 g (by rw [beside_eq hI.nodup g3]; exact hg)
      rw [idx_eq hI.nodup hg] at a1
      have a2 := C41_bare F st p h.sync L hL h0 0 (t ^^^ 1) (by rw [sb_div]; exact hc)
      rw [rd, a1] at a2
      simp at a2
    · have hr : rtOf L.length 0 t = true := by
        rw [rtOf_iff (by simpa using ht)]
        have : ¬ t / 2 < L.length / 2 ^ 1 := fun hh => hc (inForest_iff.2 hh)
        simpa using this
      have a1 := hI.inv.read_at hI.len (r := 0) (i := t) (by simpa using ht)
      obtain ⟨a, ha⟩ := Option.isSome_iff_exists.1 (hI.inv.ph.shape.root 0 t hr)
      have a3 : node L 0 t = x := by
        unfold node
        rw [(leafFn_get.1 g3).2.symm]; rfl
      rw [rd, ha, a3] at a1
      exact hx x (List.mem_of_getElem? (g4 a1)) (List.mem_of_getElem? g3)
  rw [← e]; exact k1

end Pol

namespace Tests
open Pol

/-! ## The selection -/

/-- What the loop selects: leaves at ascending positions, at least one if there are two leaves, and never all of them. -/
theorem select_spec [HashOps Hash32] (gen : ℕ → ℕ) {F : RamForest Hash32} {L : List Hash32} (hL : Ram.Represents F L) (max : ℕ)
    (hmax : max < L.length) : ∀ (fuel drawn min : ℕ), min ≤ max → max - min < fuel →
    ∃ (hs : List Hash32) (D : List ℕ) (drawn' : ℕ), select gen F max fuel drawn min = .ok (hs, drawn') ∧ D.Pairwise (· < ·) ∧
      (∀ t ∈ D, min ≤ t ∧ t ≤ max) ∧ hs.map some = D.map (fun t => L[t]?) ∧ (D = [] ↔ min = max) ∧ D.length ≤ max - min := by
  intro fuel
  induction fuel with
  | zero => intro _ _ _ h; omega
  | succ fuel ih =>
    intro drawn min hm hf
    rw [select]
    by_cases hc : max > 0 ∧ min ≠ max
    · rw [if_pos hc]
      dsimp only
      have h1 : min ≤ draw gen drawn min max := by unfold draw; omega
      have h2 : draw gen drawn min max ≤ max := by
        unfold draw
        have := Nat.mod_lt (gen drawn) (y := max - min + 1) (by omega)
        omega
      generalize draw gen drawn min max = i at h1 h2
      obtain ⟨x, hx⟩ : ∃ x, L[i]? = some x := ⟨_, List.getElem?_eq_getElem (by omega)⟩
      rw [hL.leaf i x hx, ok_bind]
      obtain ⟨hs, D, d', e1, e2, e3, e4, e5, e6⟩ := ih (drawn + 1) (if i + 1 > max then max else i + 1) (by split <;> omega) (by
        split <;> omega)
      rw [e1, ok_bind]
      refine ⟨x :: hs, i :: D, d', rfl, ?_, ?_, ?_, ?_, ?_⟩
      · rw [List.pairwise_cons]
        refine ⟨?_, e2⟩
        intro t ht
        have := e3 t ht
        split at this
        · next hh =>
          rw [if_pos hh] at e5
          rw [e5.2 rfl] at ht
          simp at ht
        · omega
      · intro t ht
        rcases List.mem_cons.1 ht with rfl | ht
        · exact ⟨h1, h2⟩
        · have := e3 t ht
          split at this <;> omega
      · rw [List.map_cons, List.map_cons, e4, hx]
      · simp only [List.cons_ne_nil, false_iff]
        exact hc.2
      · rw [List.length_cons]
        split at e6 <;> omega
    · rw [if_neg hc]
      have : min = max := by omega
      exact ⟨[], [], drawn, rfl, List.Pairwise.nil, by simp, rfl, by simp [this], by simp⟩

theorem select_end [HashOps Hash32] (gen : ℕ → ℕ) (F : RamForest Hash32) (max fuel drawn : ℕ) :
    select gen F max (fuel + 1) drawn max = .ok ([], drawn) := by
  rw [select, if_neg (by simp)]

/-- Earlier draws do not matter. -/
theorem select_congr [HashOps Hash32] {gen gen' : ℕ → ℕ} (F : RamForest Hash32) (max : ℕ) : ∀ (fuel drawn min : ℕ),
    (∀ i, drawn ≤ i → gen i = gen' i) → select gen F max fuel drawn min = select gen' F max fuel drawn min := by
  intro fuel
  induction fuel with
  | zero => intro _ _ _; rfl
  | succ fuel ih =>
    intro drawn min h
    rw [select, select]
    have : draw gen drawn min max = draw gen' drawn min max := by unfold draw; rw [h drawn le_rfl]
    rw [this]
    dsimp only
    rw [ih (drawn + 1) _ (fun i hi => h i (by omega))]

/-- The selections that are possible from `min` on. -/
theorem select_iff [HashOps Hash32] {F : RamForest Hash32} {L : List Hash32} (hL : Ram.Represents F L) (max : ℕ) (hmax : max < L.length) :
    ∀ (fuel drawn min : ℕ), min < max → max - min < fuel → ∀ hs : List Hash32, (∃ gen d, select gen F max fuel drawn min = .ok (hs, d)) ↔
      ∃ D : List ℕ, D.Pairwise (· < ·) ∧ (∀ t ∈ D, min ≤ t ∧ t ≤ max) ∧ hs.map some = D.map (fun t => L[t]?) ∧ (max - 1 ∈ D ↔ max ∉ D) := by
  intro fuel
  induction fuel with
  | zero => intro _ _ _ h; omega
  | succ fuel ih =>
    intro drawn min hm hf hs
    have hc : max > 0 ∧ min ≠ max := ⟨by omega, by omega⟩
    obtain ⟨fuel, rfl⟩ : ∃ k, fuel = k + 1 := ⟨fuel - 1, by omega⟩
    constructor
    · rintro ⟨gen, d, h⟩
      rw [select, if_pos hc] at h
      dsimp only at h
      have h1 : min ≤ draw gen drawn min max := by unfold draw; omega
      have h2 : draw gen drawn min max ≤ max := by
        unfold draw
        have := Nat.mod_lt (gen drawn) (y := max - min + 1) (by omega)
        omega
      generalize draw gen drawn min max = i at h h1 h2
      obtain ⟨x, hx⟩ : ∃ x, L[i]? = some x := ⟨_, List.getElem?_eq_getElem (by omega)⟩
      rw [hL.leaf i x hx, ok_bind] at h
      obtain ⟨⟨hs', d'⟩, e1, e2⟩ := bind_eq_ok.1 h
      rw [pure_ok] at e2
      obtain ⟨rfl, rfl⟩ := Prod.mk.inj (Except.ok.inj e2)
      by_cases hi : i + 1 < max
      · rw [if_neg (by omega)] at e1
        obtain ⟨D, k1, k2, k3, k4⟩ := (ih (drawn + 1) (i + 1) hi (by omega) hs').1 ⟨gen, _, e1⟩
        refine ⟨i :: D, ?_, ?_, ?_, ?_⟩
        · rw [List.pairwise_cons]
          exact ⟨fun t ht => by have := k2 t ht; omega, k1⟩
        · intro t ht
          rcases List.mem_cons.1 ht with rfl | ht
          · exact ⟨h1, h2⟩
          · have := k2 t ht; omega
        · rw [List.map_cons, List.map_cons, k3, hx]
        · rw [List.mem_cons, List.mem_cons, not_or]
          have a1 : ¬ max - 1 = i := by omega
          have a2 : ¬ max = i := by omega
          simp only [a1, a2, false_or, not_false_eq_true, true_and]
          exact k4
      · have : (if i + 1 > max then max else i + 1) = max := by split <;> omega
        rw [this, select_end] at e1
        obtain ⟨rfl, -⟩ := Prod.mk.inj (Except.ok.inj e1)
        refine ⟨[i], by simp, by simpa using ⟨h1, h2⟩, by simp [hx], ?_⟩
        simp only [List.mem_singleton]
        omega
    · rintro ⟨D, k1, k2, k3, k4⟩
      cases D with
      | nil => simp at k4
      | cons i D =>
        cases hs with
        | nil => simp at k3
        | cons x hs =>
          simp only [List.map_cons, List.cons.injEq] at k3
          obtain ⟨hx, k3⟩ := k3
          rw [List.pairwise_cons] at k1
          have hi := k2 i (by simp)
          have key : ∀ gen0 d, select gen0 F max (fuel + 1) (drawn + 1) (if i + 1 > max then max else i + 1) = .ok (hs, d) →
              ∃ gen d, select gen F max (fuel + 1 + 1) drawn min = .ok (x :: hs, d) := by
            intro gen0 d h0
            refine ⟨fun j => if j = drawn then i - min else gen0 j, d, ?_⟩
            have hd : draw (fun j => if j = drawn then i - min else gen0 j) drawn min max = i := by
              unfold draw
              simp only [if_pos]
              rw [Nat.mod_eq_of_lt (by omega)]; omega
            rw [select, if_pos hc]
            dsimp only
            rw [hd, hL.leaf i x hx.symm, ok_bind, select_congr (gen' := gen0) F max _ _ _ (fun j hj => if_neg (by omega)), h0, ok_bind]
            rfl
          by_cases hi2 : i + 1 < max
          · rw [if_neg (by omega)] at key
            have b1 : ∀ t ∈ D, i + 1 ≤ t ∧ t ≤ max := by
              intro t ht
              have := k1.1 t ht
              have := k2 t (by simp [ht])
              omega
            have b2 : max - 1 ∈ D ↔ max ∉ D := by
              rw [List.mem_cons, List.mem_cons, not_or] at k4
              have a1 : ¬ max - 1 = i := by omega
              have a2 : ¬ max = i := by omega
              simpa only [a1, a2, false_or, not_false_eq_true, true_and] using k4
            obtain ⟨gen0, d, h0⟩ := (ih (drawn + 1) (i + 1) hi2 (by omega) hs).2 ⟨D, k1.2, b1, k3, b2⟩
            exact key gen0 d h0
          · have hD : D = [] := by
              cases D with
              | nil => rfl
              | cons j D =>
                exfalso
                have h1 := k1.1 j (by simp)
                have h2 := k2 j (by simp)
                have : i = max - 1 ∧ j = max := by omega
                obtain ⟨rfl, rfl⟩ := this
                simp at k4
            subst hD
            obtain rfl : hs = [] := by simpa using k3
            have : (if i + 1 > max then max else i + 1) = max := by split <;> omega
            rw [this] at key
            exact key (fun _ => 0) _ (select_end _ _ _ _ _)

/-! ## The calls of one block -/

section Block
variable [HashOps Hash32]

/-- The undo batches the test has kept are those of the forest, with the roots before. -/
def Kept (us : List (UndoBatch Hash32 × List Hash32)) (st : List (UndoBatch Hash32 × RamForest Hash32)) : Prop :=
  ∃ stb rest, st = stb ++ rest ∧ List.Forall₂ (fun e f => e.1 = f.1 ∧ Ram.roots f.2 = .ok e.2) us stb

/-- Between two blocks: forest and pollard hold `L`, and the pollard remembers nothing. The forest `G` has not had its modifications
undone and done again. -/
structure Ready (s : Chain) (L : List Hash32) : Prop where
  forest : ∃ st, Ram.Run s.full st ∧ Kept s.undos st
  rep : Ram.Represents s.full L
  held : ∃ G tt, Held G tt s.pruned (fun _ => False) ∧ Ram.Represents G L
  made : ∀ x ∈ L, ∃ i < s.unique, x = Bench.setHash i
  few : s.unique < 2 ^ 31
  len : L.length ≤ s.unique
  two : 2 ≤ L.length

/-- The calls on the forest. -/
theorem forestPart_ok {F : RamForest Hash32} {st : List (UndoBatch Hash32 × RamForest Hash32)} (h : Ram.Run F st) {L : List Hash32}
    (hL : Ram.Represents F L) {adds : List (Leaf Hash32)} {hs : List Hash32} {proof : BatchProof Hash32}
    (hp : Acc.prove Ram.vt F hs = .ok (some proof)) (hv : Ram.Valid L (adds.map Prod.fst) proof.sorted) :
    ∃ cs u rs F' F2, forestPart F adds hs = .ok (cs, proof, u, rs, F') ∧ (∀ c ∈ cs, c = true) ∧ Ram.Run F' ((u, F2) :: st) ∧
      Ram.roots F2 = .ok rs ∧ Ram.Represents F' (deleteLeaves L proof.sorted ++ adds.map Prod.fst) := by
  obtain ⟨u, F1, a1, a2, -⟩ := C56_order F st h L hL adds proof.sorted hv
  obtain ⟨u', F1', F2, b1, b2, b3, b4⟩ := C20_undo F st h L hL adds proof.sorted hv
  rw [a1] at b1
  simp only [Except.ok.injEq, Prod.mk.injEq, Option.some.injEq, true_and] at b1
  obtain ⟨rfl, rfl⟩ := b1
  have hr2 : Ram.Run F2 st := Ram.Run.undo a2 b2
  obtain ⟨u', F3, c1, c2, c3⟩ := C56_order F2 st hr2 L b3 adds proof.sorted hv
  obtain ⟨u2, x, y, d1, d2⟩ := C46_same F F2 st st h hr2 L hL b3 adds proof.sorted hv
  rw [a1] at d1
  rw [c1] at d2
  simp only [Except.ok.injEq, Prod.mk.injEq, Option.some.injEq, true_and] at d1 d2
  obtain ⟨rfl, rfl⟩ := d1
  obtain ⟨rfl, rfl⟩ := d2
  refine ⟨[true, true, true, true, true], _, _, F3, F2, ?_, by simp, c2, b3.roots, c3⟩
  unfold forestPart
  rw [hL.roots, ok_bind, hp, ok_bind]
  simp only [Bench.proofOf, Option.getD_some]
  rw [a1, ok_bind]
  simp only [Option.getD_some]
  rw [b2, ok_bind]
  simp only
  rw [b3.roots, ok_bind, c1, ok_bind]
  simp

/-- Every verified leaf is proved, and the restored pollard accepts the proof. -/
theorem proveEach_ok {G : RamForest Hash32} {tt : List (UndoBatch Hash32 × RamForest Hash32)} {p : Pollard Hash32} {L : List Hash32} {A : Addr}
    (hI : SyncInv G tt p L A) : ∀ (hs : List Hash32) (foo : Pollard Hash32), Sync G tt foo →
    (∀ x ∈ hs, ∃ i : ℕ, L[i]? = some x ∧ PosMap.find p.posmap x = some i ∧ Flag p.ext (rtOf L.length) A i) →
    ∃ cs, proveEach p hs foo = .ok cs ∧ ∀ c ∈ cs, c = true := by
  intro hs
  induction hs with
  | nil => intro foo _ _; exact ⟨[], rfl, by simp⟩
  | cons x hs ih =>
    intro foo hf hx
    have e1 := hI.prove_eq [x] (fun y hy => by
      obtain rfl := List.mem_singleton.1 hy
      exact hx y (by simp))
    obtain ⟨i, hi, -⟩ := hx x (by simp)
    obtain ⟨r, e2, e3, e4⟩ := C22_prove G tt hI.run L hI.rep [x]
    obtain ⟨proof, rfl⟩ := Option.isSome_iff_exists.1 (e3.2 ⟨by simp, fun y hy => by
      obtain rfl := List.mem_singleton.1 hy
      exact List.mem_of_getElem? hi⟩)
    obtain ⟨f1, -, f3, -⟩ := e4 proof rfl
    have hst : [x].map some = proof.sorted.map fun t => L[t]? := by
      have := (f3.map fun t => L[t]?).trans (List.Perm.of_eq f1)
      exact (List.perm_singleton.1 this).symm
    obtain ⟨foo1, g1, -, g3⟩ := C24_complete G tt foo hf L hI.rep [x] proof e2 [x] hst
    obtain ⟨foo2, rs, k1, -, -, -, -, -, k2⟩ := C28_prune G tt foo1 g3
    obtain ⟨cs, c1, c2⟩ := ih foo2 k2 (fun y hy => hx y (by simp [hy]))
    refine ⟨true :: true :: cs, ?_, by simpa using c2⟩
    rw [proveEach, e1, e2, ok_bind]
    simp only [Bench.proofOf, Option.getD_some]
    rw [g1, ok_bind]
    simp only
    rw [k1, ok_bind, c1, ok_bind]
    rfl

/-- The calls on the pollard. -/
theorem pollardPart_ok {G : RamForest Hash32} {tt : List (UndoBatch Hash32 × RamForest Hash32)} {p : Pollard Hash32}
    (h : Held G tt p (fun _ => False)) {L : List Hash32} (hL : Ram.Represents G L) {adds : List (Leaf Hash32)} {hs : List Hash32}
    {proof : BatchProof Hash32} (hp : Acc.prove Ram.vt G hs = .ok (some proof)) (hv : Ram.Valid L (adds.map Prod.fst) proof.sorted)
    (hhs : hs.map some = proof.sorted.map fun t => L[t]?) (hne : proof.targets ≠ []) (hnd : hs.Nodup) (hf : ∀ l ∈ adds, l.2 = false) :
    ∃ cs p' G' tt', pollardPart p adds proof hs = .ok (cs, p') ∧ (∀ c ∈ cs, c = true) ∧ Held G' tt' p' (fun _ => False) ∧
      Ram.Represents G' (deleteLeaves L proof.sorted ++ adds.map Prod.fst) := by
  obtain ⟨p1, u, G', p2, L', a1, a2, a3, a4, a5, -⟩ := C23_apply G tt p h.sync L hL hs proof hp adds adds rfl hv hs hhs
  obtain ⟨p1', b1, b2, b3⟩ := C24_complete G tt p h.sync L hL hs proof hp hs hhs
  rw [a1] at b1
  obtain rfl : p1 = p1' := by simpa using b1
  have hH1 := h.verify hL a1 b2
  have hc1 : numCachedLeaves p1 = hs.length := C42_held G tt p1 _ hH1 hs hnd (by simp)
  obtain ⟨n1, rs, n2, n3⟩ := C23_agree G tt p1 b3
  obtain ⟨r, f1, -, f3⟩ := C22_prove G tt (by obtain ⟨_, _, hI⟩ := h.sync.inv; exact hI.run) L hL hs
  rw [f1] at hp
  obtain rfl := Except.ok.inj hp
  have hperm := (f3 proof rfl).2.2.1
  have hB := h.block hL hv (fun e => absurd e hne) rfl a1 b2 a2 a3
  have e0 : (fun x => (False ∧ x ∈ survivors L proof.sorted) ∨ (x, true) ∈ adds) = fun _ => False := by
    funext x
    apply propext
    simp only [false_and, false_or, iff_false]
    intro hx
    simpa using hf _ hx
  rw [e0] at hB
  have hc2 : numCachedLeaves p2 = 0 := C42_held _ _ p2 _ hB [] List.nodup_nil (by simp)
  have hrun : Ram.Run G tt := by obtain ⟨_, _, hI⟩ := h.sync.inv; exact hI.run
  obtain ⟨u', G1, c1, -, c3⟩ := C56_order G tt hrun L hL adds proof.sorted hv
  rw [a2] at c1
  simp only [Except.ok.injEq, Prod.mk.injEq, Option.some.injEq, true_and] at c1
  obtain ⟨rfl, rfl⟩ := c1
  obtain ⟨rs', foo, d1, d2, -, -, d3⟩ := C29_restore G tt hrun
  rw [n2] at d1
  obtain rfl := Except.ok.inj d1
  -- the position map and the flags after the verification
  obtain ⟨L0, A, hI⟩ := h.inv
  obtain rfl := hL.unique hI.sync.rep
  have hacc : ∃ A1, SyncInv G tt p1 L A1 ∧ ∀ x ∈ hs, ∃ i : ℕ, L[i]? = some x ∧ PosMap.find p1.posmap x = some i ∧
      Flag p1.ext (rtOf L.length) A1 i := by
    rcases verify_ok hI.sync.inv hI.sync.len proof hs with ⟨e, -⟩ | ⟨-, e, -⟩ | ⟨e, -⟩ | ⟨s', e, -⟩ | ⟨s', A1, e, -, ha, -⟩
    · rw [e] at a1; simp at a1
    · exact absurd e hne
    · rw [e] at a1; simp at a1
    · rw [e] at a1; simp at a1
    · rw [e] at a1
      obtain rfl : s' = p1 := by simpa using a1
      have nc : ¬ Coll s'.ext A1 L.length (leafFn HashOps.zero L) := by rw [coll_iff ha.ph hI.sync.len]; exact b2
      obtain ⟨k1, k2⟩ := hI.accepted ha nc
      obtain ⟨-, hhs'⟩ := ha.sound hI.sync.inv nc
      obtain ⟨-, -, k3⟩ := ha.find hI.sync.nodup hhs'
      refine ⟨A1, k1.sync, ?_⟩
      intro x hx
      obtain ⟨t, ht, hlt⟩ := (k2 x).1 hx
      exact ⟨t, hlt, k3 t ht x hlt, (k1.flag t x hlt).2 (.inr hx)⟩
  obtain ⟨A1, hS1, hfl⟩ := hacc
  obtain ⟨cs, e1, e2⟩ := proveEach_ok hS1 hs foo d3 hfl
  refine ⟨true :: true :: cs ++ [true, true], p2, G', _, ?_, ?_, hB, c3⟩
  · unfold pollardPart
    rw [a1, ok_bind]
    simp only
    rw [n3, ok_bind, n1, d2, ok_bind, e1, ok_bind, a3, ok_bind]
    simp [hc1, hc2]
  · intro c hc
    simp only [List.cons_append, List.mem_cons, List.mem_append, List.not_mem_nil, or_false] at hc
    rcases hc with rfl | rfl | hc | rfl | rfl
    · rfl
    · rfl
    · exact e2 c hc
    · rfl
    · rfl

theorem leaves_ok {count offset : ℕ} (h : offset + count < 2 ^ 31) : leaves count offset = .ok (Bench.testLeaves count offset) := by
  unfold leaves
  rw [if_pos (by omega)]

/-- A block up to the modification of the pollard. -/
theorem connect_ok (gen : ℕ → ℕ) {maxAdds : ℕ} (hm : 1 ≤ maxAdds) {s : Chain} {L : List Hash32} (h : Ready s L)
    (hu : s.unique + maxAdds < 2 ^ 31) :
    ∃ cs proof hs s' L', connect gen maxAdds s = .ok (cs, proof, hs, s') ∧ (∀ c ∈ cs, c = true) ∧ Ready s' L' ∧
      proof.targets ≠ [] ∧ hs.length = proof.targets.length ∧ hs ≠ [] ∧ (∀ x ∈ hs, x ∈ L ∧ x ∉ L') ∧ s'.unique ≤ s.unique + maxAdds ∧
      s'.undos.length = s.undos.length + 1 := by
  obtain ⟨st, hrun, hkept⟩ := h.forest
  obtain ⟨G, tt, hheld, hG⟩ := h.held
  obtain ⟨L0, hL0, hnd, -⟩ := C16_represents _ _ hrun
  obtain rfl := h.rep.unique hL0
  have hlen := h.len
  have htwo := h.two
  -- the additions
  have hk : 1 ≤ draw gen s.drawn 1 maxAdds ∧ draw gen s.drawn 1 maxAdds ≤ maxAdds := by
    unfold draw
    have := Nat.mod_lt (gen s.drawn) (y := maxAdds - 1 + 1) (by omega)
    omega
  generalize hke : draw gen s.drawn 1 maxAdds = k at hk
  have hadds := leaves_ok (count := k) (offset := s.unique) (by omega)
  set adds := Bench.testLeaves k s.unique with hA
  have hAe : adds = (List.range' s.unique k).map fun i => (Bench.setHash i, false) := Bench.testLeaves_eq k s.unique
  have hal : adds.length = k := by rw [hAe]; simp
  have hfst : adds.map Prod.fst = (List.range' s.unique k).map Bench.setHash := by rw [hAe, List.map_map]; rfl
  have hadd : ∀ x, x ∈ adds.map Prod.fst → ∃ i, s.unique ≤ i ∧ i < s.unique + k ∧ x = Bench.setHash i := by
    intro x hx
    rw [hfst] at hx
    obtain ⟨i, hi, rfl⟩ := List.mem_map.1 hx
    rw [List.mem_range'_1] at hi
    exact ⟨i, hi.1, hi.2, rfl⟩
  have hnew : ∀ x ∈ L, x ∉ adds.map Prod.fst := by
    intro x hx hxa
    obtain ⟨i, hi, rfl⟩ := h.made x hx
    obtain ⟨j, hj1, hj2, e⟩ := hadd _ hxa
    have := Bench.setHash_inj (by omega) (by omega) e
    omega
  -- the deletions
  obtain ⟨hs, D, drawn', e1, e2, e3, e4, e5, e6⟩ := select_spec gen h.rep (L.length - 1) (by omega) (s.full.numLeaves + 1) (s.drawn + 1) 0
    (by omega) (by rw [h.rep.count]; omega)
  have hDne : D ≠ [] := fun hh => by have := e5.1 hh; omega
  have hhl : hs.length = D.length := by simpa using congrArg List.length e4
  have hDlt : ∀ t ∈ D, t < L.length := fun t ht => by have := e3 t ht; omega
  obtain ⟨proof, p1, f1, f2, -, -⟩ := C24_positions G tt s.pruned hheld.sync L hG D e2 hs e4
  have hGrun : Ram.Run G tt := by obtain ⟨_, _, hI⟩ := hheld.sync.inv; exact hI.run
  have f1' : Acc.prove Ram.vt s.full hs = .ok (some proof) := by
    rw [C22_same s.full G st tt hrun hGrun L h.rep hG hs]; exact f1
  obtain ⟨r, g1, g2, g3⟩ := C22_prove s.full st hrun L h.rep hs
  rw [f1'] at g1
  obtain rfl := Except.ok.inj g1
  obtain ⟨hsnd, hsL⟩ := g2.1 rfl
  have hperm := (g3 proof rfl).2.2.1
  have htl : proof.targets.length = D.length := by rw [← hperm.length_eq, f2]
  have htne : proof.targets ≠ [] := by
    intro hh
    rw [hh] at htl
    exact hDne (List.eq_nil_of_length_eq_zero htl.symm)
  have hv : Ram.Valid L (adds.map Prod.fst) proof.sorted := by
    rw [f2]
    refine ⟨e2, hDlt, ?_, ?_, fun _ => by omega, by rw [List.length_map]; omega⟩
    · rw [hfst]
      refine (List.nodup_range' (step := 1) (by omega)).map_on ?_
      intro x hx y hy e
      rw [List.mem_range'_1] at hx hy
      exact Bench.setHash_inj (by omega) (by omega) e
    · intro x hx
      obtain ⟨i, hi, -⟩ := mem_survivors.1 hx
      exact hnew x (List.mem_of_getElem? hi)
  obtain ⟨c1, u, rs, F', F2, k1, k2, k3, k4, k5⟩ := forestPart_ok hrun h.rep f1' hv
  obtain ⟨c2, p', G', tt', m1, m2, m3, m4⟩ := pollardPart_ok hheld hG f1 hv (by rw [f2]; exact e4) htne hsnd (by
    intro l hl
    rw [hAe] at hl
    obtain ⟨i, -, rfl⟩ := List.mem_map.1 hl
    rfl)
  have hsur := C56_survivors L D e2 hDlt (by omega)
  have hsl : (deleteLeaves L D).length = L.length - D.length := by
    rw [hsur.length_eq, survivors_length (by omega) e2 hDlt]
  rw [f2] at k5 m4
  refine ⟨c1 ++ c2, proof, hs, ⟨F', p', s.unique + adds.length, drawn', (u, rs) :: s.undos⟩, deleteLeaves L D ++ adds.map Prod.fst, ?_, ?_, ⟨⟨_, k3, ?_⟩, k5, ⟨G', tt', m3, m4⟩, ?_, ?_, ?_, ?_⟩, htne,
    by rw [hhl, htl], ?_, ?_, ?_, rfl⟩
  · unfold connect
    rw [hke, hadds, ok_bind, h.rep.count]
    rw [h.rep.count] at e1
    rw [e1, ok_bind]
    simp only
    rw [k1, ok_bind]
    simp only
    rw [m1, ok_bind]
    rfl
  · intro c hc
    rcases List.mem_append.1 hc with hc | hc
    · exact k2 c hc
    · exact m2 c hc
  · obtain ⟨stb, rest, q1, q2⟩ := hkept
    exact ⟨(u, F2) :: stb, rest, by rw [q1]; rfl, List.Forall₂.cons ⟨rfl, k4⟩ q2⟩
  · intro x hx
    rcases List.mem_append.1 hx with hx | hx
    · obtain ⟨i, hi, -⟩ := mem_survivors.1 (hsur.mem_iff.1 hx)
      obtain ⟨j, hj, e⟩ := h.made x (List.mem_of_getElem? hi)
      exact ⟨j, by show j < s.unique + adds.length; omega, e⟩
    · obtain ⟨j, -, hj, e⟩ := hadd x hx
      exact ⟨j, by show j < s.unique + adds.length; omega, e⟩
  · show s.unique + adds.length < 2 ^ 31
    omega
  · show _ ≤ s.unique + adds.length
    rw [List.length_append, hsl, List.length_map]; omega
  · rw [List.length_append, hsl, List.length_map]
    have : D.length ≤ L.length - 1 := by simpa using e6
    omega
  · intro hh
    rw [hh] at hhl
    exact hDne (List.eq_nil_of_length_eq_zero hhl.symm)
  · intro x hx
    refine ⟨hsL x hx, ?_⟩
    intro hc
    rcases List.mem_append.1 hc with hc | hc
    · obtain ⟨i, hi, hiD⟩ := mem_survivors.1 (hsur.mem_iff.1 hc)
      have : some x ∈ hs.map some := List.mem_map_of_mem hx
      rw [e4] at this
      obtain ⟨t, ht, e⟩ := List.mem_map.1 this
      rw [get_inj hnd hi e] at hiD
      exact hiD ht
    · exact hnew x (hsL x hx) hc
  · show s.unique + adds.length ≤ _
    omega

/-- The old proof is verified again: the test goes on, or a node is zero, or there is a collision. -/
theorem again_ok {s : Chain} {L : List Hash32} (h : Ready s L) {proof : BatchProof Hash32} {hs : List Hash32} (hne : proof.targets ≠ [])
    (hl : hs ≠ []) (hx : ∀ x ∈ hs, x ∉ L) :
    (∃ cs s', again proof hs s = .ok (cs, s') ∧ (∀ c ∈ cs, c = true) ∧ Ready s' L ∧ s'.unique = s.unique ∧ s'.undos = s.undos) ∨
    (∃ r i, InForest L.length r i ∧ node L r i = HashOps.zero) ∨
    ∃ p', verify s.pruned proof hs = .ok (true, p') ∧ Collision p' L := by
  obtain ⟨G, tt, hheld, hG⟩ := h.held
  obtain ⟨L0, A, hI⟩ := hheld.inv
  obtain rfl := hG.unique hI.sync.rep
  have hlt : proof.targets.length > 0 := List.length_pos_iff.2 hne
  have hans : (∃ b p', verify s.pruned proof hs = .ok (b, p')) ∨ ∃ r i, InForest L.length r i ∧ node L r i = HashOps.zero := by
    rcases verify_ok hI.sync.inv hI.sync.len proof hs with ⟨e, -⟩ | ⟨e, -⟩ | ⟨-, -, r, x, q, hq, hz⟩ | ⟨s', e, -⟩ | ⟨s', A1, e, -⟩
    · exact .inl ⟨_, _, e⟩
    · exact .inl ⟨_, _, e⟩
    · refine .inr ⟨r, x, inForest_iff.2 ?_, hz⟩
      by_contra hc
      rw [hI.sync.inv.out r x hc] at hq; simp at hq
    · exact .inl ⟨_, _, e⟩
    · exact .inl ⟨_, _, e⟩
  rcases hans with ⟨b, p', hv⟩ | hz
  · cases b with
    | true =>
      obtain ⟨h1, h2⟩ := C25_sound G tt s.pruned hheld.sync L hG proof hs p' hv
      rcases h2 with h2 | ⟨-, h2⟩ | h2
      · exact absurd h2 hne
      · exfalso
        obtain ⟨x, hs', rfl⟩ := List.exists_cons_of_ne_nil hl
        have : some x ∈ (x :: hs').map some := by simp
        rw [h2] at this
        obtain ⟨t, -, e⟩ := List.mem_map.1 this
        exact hx x (by simp) (List.mem_of_getElem? e)
      · exact .inr (.inr ⟨p', hv, h2⟩)
    | false =>
      have hH := held_refused hheld hG hv hx
      obtain ⟨-, rs, r1, r2⟩ := C23_agree G tt p' hH.sync
      have hr : Ram.roots s.full = .ok rs := by rw [h.rep.roots, ← hG.roots, r1]
      left
      refine ⟨[true, true], { s with pruned := p' }, ?_, by simp, ⟨h.forest, h.rep, ⟨G, tt, hH, hG⟩, h.made, h.few, h.len, h.two⟩, rfl, rfl⟩
      unfold again
      rw [if_pos hlt, hv, ok_bind]
      simp only
      rw [pure_ok, ok_bind]
      simp only
      rw [r2, ok_bind, hr, ok_bind]
      simp
  · exact .inr (.inl hz)

/-- The rollback of the batches that were kept. -/
theorem rollback_ok : ∀ (us : List (UndoBatch Hash32 × List Hash32)) (st : List (UndoBatch Hash32 × RamForest Hash32)) (F : RamForest Hash32),
    Unwinds F st → Kept us st → ∃ cs, rollback us F = .ok (cs, us.length) ∧ ∀ c ∈ cs, c = true := by
  intro us
  induction us with
  | nil => intro _ _ _ _; exact ⟨[], rfl, by simp⟩
  | cons e us ih =>
    rintro st F hu ⟨stb, rest, h1, h2⟩
    cases h2 with
    | @cons _ f _ stb' hef hrest =>
      rw [List.cons_append] at h1
      subst h1
      cases hu with
      | @step _ s' s0 u _ a1 a2 a3 =>
        obtain ⟨cs, c1, c2⟩ := ih _ s' a3 ⟨stb', rest, rfl, hrest⟩
        obtain ⟨eu, er⟩ := e
        obtain ⟨rfl, hr⟩ := hef
        refine ⟨true :: true :: cs, ?_, by simpa using c2⟩
        rw [rollback]
        dsimp only
        rw [a1, ok_bind]
        dsimp only
        dsimp only at hr
        rw [a2.roots, hr, ok_bind, c1, ok_bind]
        simp [List.length_cons]

/-- The test up to the first block whose old proof is accepted again, or for which that is undefined. -/
theorem blocks_ok (gen : ℕ → ℕ) {maxAdds : ℕ} (hm : 1 ≤ maxAdds) (k : ℕ) : ∀ (s : Chain) (L : List Hash32), Ready s L →
    s.unique + k * maxAdds < 2 ^ 31 →
    (∃ cs s' L', blocks gen maxAdds k s = .ok (cs, s') ∧ (∀ c ∈ cs, c = true) ∧ Ready s' L' ∧ s'.undos.length = s.undos.length + k) ∨
    ∃ j < k, ∃ cs s1 cs' proof hs s2 L', blocks gen maxAdds j s = .ok (cs, s1) ∧ (∀ c ∈ cs, c = true) ∧
      connect gen maxAdds s1 = .ok (cs', proof, hs, s2) ∧ (∀ c ∈ cs', c = true) ∧ Ready s2 L' ∧
      ((∃ r i, InForest L'.length r i ∧ node L' r i = HashOps.zero) ∨ ∃ p', verify s2.pruned proof hs = .ok (true, p') ∧ Collision p' L') := by
  induction k with
  | zero => intro s L h _; exact .inl ⟨[], s, L, rfl, by simp, h, rfl⟩
  | succ k ih =>
    intro s L h hu
    have hmul : (k + 1) * maxAdds = k * maxAdds + maxAdds := by rw [Nat.add_mul, Nat.one_mul]
    obtain ⟨c1, proof, hs, s1, L1, a1, a2, a3, a4, a5, a6, a7, a8, a9⟩ := connect_ok gen hm h (by omega)
    rcases again_ok a3 a4 a6 (fun x hx => (a7 x hx).2) with ⟨c2, s2, b1, b2, b3, b4, b5⟩ | hbad
    · rcases ih s2 L1 b3 (by omega) with ⟨c3, s3, L3, d1, d2, d3, d4⟩ | ⟨j, hj, c3, s3, c4, pr, hs', s4, L4, d1, d2, d3, d4, d5, d6⟩
      · left
        refine ⟨c1 ++ c2 ++ c3, s3, L3, ?_, ?_, d3, by rw [d4, b5, a9]; omega⟩
        · rw [blocks, a1, ok_bind]
          dsimp only
          rw [b1, ok_bind]
          dsimp only
          rw [d1, ok_bind]
          rfl
        · intro c hc
          rcases List.mem_append.1 hc with hc | hc
          · rcases List.mem_append.1 hc with hc | hc
            · exact a2 c hc
            · exact b2 c hc
          · exact d2 c hc
      · right
        refine ⟨j + 1, by omega, c1 ++ c2 ++ c3, s3, c4, pr, hs', s4, L4, ?_, ?_, d3, d4, d5, d6⟩
        · rw [blocks, a1, ok_bind]
          dsimp only
          rw [b1, ok_bind]
          dsimp only
          rw [d1, ok_bind]
          rfl
        · intro c hc
          rcases List.mem_append.1 hc with hc | hc
          · rcases List.mem_append.1 hc with hc | hc
            · exact a2 c hc
            · exact b2 c hc
          · exact d2 c hc
    · right
      refine ⟨0, by omega, [], s, c1, proof, hs, s1, L1, rfl, by simp, a1, a2, a3, ?_⟩
      rcases hbad with hbad | hbad
      · exact .inl hbad
      · exact .inr hbad

theorem genesis_ok : ∃ s L, genesis = .ok s ∧ Ready s L ∧ s.unique = 8 ∧ s.undos = [] := by
  have hv : Ram.Valid ([] : List Hash32) ((Bench.testLeaves 8 0).map Prod.fst) [] := by
    rw [Bench.testLeaves_fst]
    refine ⟨List.Pairwise.nil, by simp, Bench.hashesOf_nodup (by omega), by simp [survivors], by simp, ?_⟩
    rw [Bench.hashesOf_length]; simp
  have h0 : Ram.Represents (Ram.mk 0 : RamForest Hash32) [] := Ram.mk_inv.represents (f := leafFn HashOps.zero []) (by omega)
  obtain ⟨u, F, a1, a2, a3⟩ := C56_order (Ram.mk 0) [] Ram.Run.empty [] h0 (Bench.testLeaves 8 0) [] hv
  have hp : Acc.prove Ram.vt (Ram.mk 0 : RamForest Hash32) [] = .ok (some (BatchProof.mk' [] [])) := by rfl
  obtain ⟨p1, u', F', p2, L', b1, b2, b3, -, -, -⟩ := C23_apply (Ram.mk 0) [] (Pol.mk 0) Sync.empty [] h0 [] (BatchProof.mk' [] []) hp
    (Bench.testLeaves 8 0) (Bench.testLeaves 8 0) rfl hv [] rfl
  obtain rfl : Pol.mk 0 = p1 := by
    obtain ⟨A, hA⟩ := mk_ok (H := Hash32) (leafFn HashOps.zero [])
    rcases verify_ok hA (by omega) (BatchProof.mk' [] []) [] with ⟨e, -⟩ | ⟨e, -⟩ | ⟨e, -⟩ | ⟨s', e, -⟩ | ⟨s', A1, e, hne, -⟩
    · rw [e] at b1; simp at b1
    · rw [e] at b1; simpa using b1
    · rw [e] at b1; simp at b1
    · rw [e] at b1; simp at b1
    · exact absurd rfl hne
  have hH := Held.later Held.empty Sync.empty h0 Verifies.none hv rfl (.inl (by simp)) b2 b3
  have e0 : (fun x => (False ∧ x ∈ survivors ([] : List Hash32) []) ∨ (x, true) ∈ Bench.testLeaves 8 0) = fun _ => False := by
    funext x
    apply propext
    simp only [false_and, false_or, iff_false]
    intro hx
    rw [Bench.testLeaves_eq] at hx
    obtain ⟨i, -, e⟩ := List.mem_map.1 hx
    simp at e
  rw [e0] at hH
  replace b2 : Ram.modify (Ram.mk 0) (Bench.testLeaves 8 0) [] = .ok (true, some u', F') := b2
  replace b3 : Pol.modify (Pol.mk 0) (Bench.testLeaves 8 0) [] = .ok (true, p2) := b3
  rw [a1] at b2
  simp only [Except.ok.injEq, Prod.mk.injEq, Option.some.injEq, true_and] at b2
  obtain ⟨rfl, rfl⟩ := b2
  have hd : deleteLeaves ([] : List Hash32) [] = [] := C56_nothing [] (by simp)
  rw [hd, List.nil_append, Bench.testLeaves_fst] at a3
  refine ⟨⟨F, p2, 8, 0, []⟩, Bench.hashesOf 8, ?_, ⟨⟨_, a2, [], _, rfl, List.Forall₂.nil⟩, a3, ⟨_, _, hH, a3⟩, ?_, by simp, by simp [Bench.hashesOf_length],
    by simp [Bench.hashesOf_length]⟩, rfl, rfl⟩
  · unfold genesis
    rw [leaves_ok (by omega), ok_bind, a1, ok_bind]
    dsimp only
    rw [b3, ok_bind]
    rfl
  · intro x hx
    unfold Bench.hashesOf at hx
    obtain ⟨i, hi, rfl⟩ := List.mem_map.1 hx
    exact ⟨i, List.mem_range.1 hi, rfl⟩

end Block
end Tests

/-! ## C78 -/

/-- C78: what a block of the test can delete from a forest of two or more leaves: every set of leaves with exactly one of the last two.
So the test always deletes a leaf and never all of them. -/
theorem C78_selection [HashOps Hash32] (F : RamForest Hash32) (L : List Hash32) (hL : Ram.Represents F L) (h2 : 2 ≤ L.length) (drawn : ℕ)
    (hs : List Hash32) :
    (∃ gen d, Tests.select gen F (F.numLeaves - 1) (F.numLeaves + 1) drawn 0 = .ok (hs, d)) ↔
      ∃ D : List ℕ, D.Pairwise (· < ·) ∧ (∀ t ∈ D, t < L.length) ∧ hs.map some = D.map (fun t => L[t]?) ∧
        (L.length - 2 ∈ D ↔ L.length - 1 ∉ D) := by
  rw [hL.count, Tests.select_iff hL (L.length - 1) (by omega) (L.length + 1) drawn 0 (by omega) (by omega) hs]
  have e : L.length - 1 - 1 = L.length - 2 := by omega
  constructor
  · rintro ⟨D, k1, k2, k3, k4⟩
    exact ⟨D, k1, fun t ht => by have := k2 t ht; omega, k3, by rw [← e]; exact k4⟩
  · rintro ⟨D, k1, k2, k3, k4⟩
    exact ⟨D, k1, fun t ht => ⟨Nat.zero_le _, by have := k2 t ht; omega⟩, k3, by rw [e]; exact k4⟩

section Sha
open Pol Tests
attribute [local instance] shaOps

/-- C78: whatever the random numbers are, the test ends and all its checks succeed, unless in some block, before which all checks have
succeeded, a node of the forest is zero or the proof of the deleted leaves is accepted again; the former exhibits a message with digest
zero, the latter two messages with the same digest. -/
theorem C78_blockchain (gen : ℕ → ℕ) (numBlocks maxAdds : ℕ) (hm : 1 ≤ maxAdds) (hn : 8 + numBlocks * maxAdds < 2 ^ 31) :
    (∃ cs, simpleBlockchain gen numBlocks maxAdds = .ok cs ∧ ∀ c ∈ cs, c = true) ∨
    ∃ j < numBlocks, ∃ s0 cs s1 cs' proof hs s2 L, genesis = .ok s0 ∧ blocks gen maxAdds j s0 = .ok (cs, s1) ∧ (∀ c ∈ cs, c = true) ∧
      connect gen maxAdds s1 = .ok (cs', proof, hs, s2) ∧ (∀ c ∈ cs', c = true) ∧ Ram.Represents s2.full L ∧
      (ZeroFound L ∨ ∃ p', verify s2.pruned proof hs = .ok (true, p') ∧ ShaFound p' L) := by
  obtain ⟨s0, L0, g1, g2, g3, g4⟩ := genesis_ok
  rcases blocks_ok gen hm numBlocks s0 L0 g2 (by omega) with ⟨cs, s, L, a1, a2, a3, a4⟩ | ⟨j, hj, cs, s1, cs', proof, hs, s2, L, a1, a2, a3, a4, a5, a6⟩
  · left
    obtain ⟨st, b1, b2⟩ := a3.forest
    obtain ⟨cs', c1, c2⟩ := rollback_ok s.undos st s.full (C21_unwind s.full st b1) b2
    refine ⟨cs ++ cs' ++ [true], ?_, ?_⟩
    · unfold simpleBlockchain
      rw [g1, ok_bind, a1, ok_bind]
      dsimp only
      rw [c1, ok_bind, a4, g4]
      simp
    · intro c hc
      simp only [List.mem_append, List.mem_singleton] at hc
      rcases hc with (hc | hc) | hc
      · exact a2 c hc
      · exact c2 c hc
      · exact hc
  · right
    refine ⟨j, hj, s0, cs, s1, cs', proof, hs, s2, L, g1, a1, a2, a3, a4, a5.rep, ?_⟩
    rcases a6 with ⟨r, i, h1, h2⟩ | ⟨p', h1, h2⟩
    · refine .inl (Fuzz.zero_of ?_ h1 h2)
      intro x hx
      obtain ⟨i, -, rfl⟩ := a5.made x hx
      intro h
      have := congrArg (fun x : Hash32 => x.val[4]?) h
      have e1 : (Bench.setHash i).val[4]? = some 255 := rfl
      have e2 : (HashOps.zero : Hash32).val[4]? = some 0 := rfl
      rw [e1, e2] at this
      exact absurd this (by decide)
    · exact .inr ⟨p', h1, shaFound_of h2⟩

end Sha

/-! ## Concrete cases -/

/-- The numbers of the test meet the hypotheses of `C78_blockchain`. -/
example : 1 ≤ 128 ∧ 8 + 1000 * 128 < 2 ^ 31 := by decide

section Examples
attribute [local instance] toyOps32

/-- Four blocks with at most three additions: 73 checks, all of which succeed. -/
example : Tests.simpleBlockchain (fun i => 7 * i + 3) 4 3 = .ok (List.replicate 73 true) := by decide +kernel

/-- What two generators select from the eight leaves of the start: `[7]` and all but the last. -/
example : (do
      let s ← Tests.genesis
      let (a, i) ← Tests.select (fun _ => 7) s.full 7 9 0 0
      let (b, j) ← Tests.select (fun _ => 0) s.full 7 9 0 0
      return decide (a = [Bench.setHash 7] ∧ i = 1 ∧ b = (List.range 7).map Bench.setHash ∧ j = 7)) = .ok true := by decide +kernel

end Examples

end Utreexo
