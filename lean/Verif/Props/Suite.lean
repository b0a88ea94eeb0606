import Verif.Model.Suite
import Verif.Props.Tests
import Verif.Props.Compare
import Verif.Props.Hashes
import Verif.Props.Wire
import Verif.Props.Object
import Verif.Props.Later
import Verif.Props.Exact
import Verif.Props.Fuzz
import Verif.Props.Order
import Verif.Props.Track

/-!
# C79: the tests of the accumulators hold at every size

The tests of src/test/accumulator_tests.cpp check a few literal forests. Here the same calls are shown to succeed for every number of
leaves an `int` can count and for every choice of leaves.
-/

set_option linter.unusedSectionVars false

namespace Utreexo
open Spec Equiv Pol Bench

namespace Suite

/-- The test leaves, of which those with a number in `rem` are to be remembered. -/
def leavesOf (n : ℕ) (rem : List ℕ) : List (Leaf Hash32) := (List.range n).map fun i => (setHash i, decide (i ∈ rem))

theorem leavesOf_fst (n : ℕ) (rem : List ℕ) : (leavesOf n rem).map Prod.fst = hashesOf n := by
  unfold leavesOf hashesOf
  rw [List.map_map]; rfl

theorem leavesOf_get {n : ℕ} (rem : List ℕ) {i : ℕ} (hi : i < n) : (leavesOf n rem)[i]? = some (setHash i, decide (i ∈ rem)) := by
  unfold leavesOf
  rw [List.getElem?_map, List.getElem?_range hi]; rfl

theorem leavesOf_length (n : ℕ) (rem : List ℕ) : (leavesOf n rem).length = n := by simp [leavesOf]

theorem testLeaves_of (n : ℕ) : testLeaves n 0 = leavesOf n [] := by
  rw [testLeaves_eq, ← List.range_eq_range']
  rfl

theorem rememberAt_ok {n : ℕ} : ∀ (is rem : List ℕ), (∀ i ∈ is, i < n) →
    rememberAt (leavesOf n rem) is = .ok (leavesOf n (is ++ rem)) := by
  intro is
  induction is with
  | nil => intro rem _; rfl
  | cons i is ih =>
    intro rem h
    have hi := h i (by simp)
    rw [rememberAt, vecGet_ok (leavesOf_get rem hi), ok_bind]
    dsimp only
    have e : (leavesOf n rem).set i (setHash i, true) = leavesOf n (i :: rem) := by
      apply List.ext_getElem?
      intro j
      rw [List.getElem?_set, leavesOf_length]
      by_cases hj : j < n
      · by_cases hij : i = j
        · subst hij
          rw [if_pos rfl, if_pos hi, leavesOf_get _ hi]
          simp
        · rw [if_neg hij, leavesOf_get _ hj, leavesOf_get _ hj]
          simp [Ne.symm hij]
      · rw [if_neg (by omega), List.getElem?_eq_none (by rw [leavesOf_length]; omega),
          List.getElem?_eq_none (by rw [leavesOf_length]; omega)]
    rw [e, ih _ (fun j hj => h j (by simp [hj]))]
    congr 1
    unfold leavesOf
    apply List.map_congr_left
    intro j _
    congr 1
    apply decide_eq_decide.2
    simp only [List.mem_append, List.mem_cons]
    tauto

theorem hashesAt_ok {n : ℕ} (rem : List ℕ) : ∀ (D : List ℕ), (∀ i ∈ D, i < n) → hashesAt (leavesOf n rem) D = .ok (D.map setHash) := by
  intro D
  induction D with
  | nil => intro _; rfl
  | cons i D ih =>
    intro h
    rw [hashesAt, vecGet_ok (leavesOf_get rem (h i (by simp))), ok_bind]
    dsimp only
    rw [ih (fun j hj => h j (by simp [hj])), ok_bind]
    rfl

theorem at_hashes {n : ℕ} {D : List ℕ} (h : ∀ t ∈ D, t < n) : (D.map setHash).map some = D.map fun t => (hashesOf n)[t]? := by
  rw [List.map_map]
  apply List.map_congr_left
  intro t ht
  rw [hashesOf_get (h t ht)]; rfl

theorem valid_del {n : ℕ} (hn : n < 2 ^ 31) {D : List ℕ} (hD : D.Pairwise (· < ·)) (h : ∀ t ∈ D, t < n) :
    Ram.Valid (hashesOf n) (([] : List (Leaf Hash32)).map Prod.fst) D := by
  refine ⟨hD, by rw [hashesOf_length]; exact h, List.nodup_nil, by simp, fun _ => by rw [hashesOf_length]; omega, ?_⟩
  rw [hashesOf_length]
  simp only [List.map_nil, List.length_nil]
  omega

section Setup
variable [HashOps Hash32]

/-- The objects of a test after its first two calls. -/
structure Start (n : ℕ) (rem : List ℕ) (u : UndoBatch Hash32) (F : RamForest Hash32) (p : Pollard Hash32) : Prop where
  run : Ram.Run F [(u, Ram.mk 0)]
  rep : Ram.Represents F (hashesOf n)
  held : Held F [(u, Ram.mk 0)] p fun x => ∃ i ∈ rem, x = setHash i
  track : Track F [(u, Ram.mk 0)] p (fun x => ∃ i ∈ rem, x = setHash i) fun x => ∃ i ∈ rem, x = setHash i
  made : Ram.modify (Ram.mk 0) (leavesOf n rem) [] = .ok (true, some u, F)
  grown : Pol.modify (Pol.mk 0) (leavesOf n rem) [] = .ok (true, p)

theorem setup_ok {n : ℕ} (hn : n < 2 ^ 31) {rem : List ℕ} (hr : ∀ i ∈ rem, i < n) :
    ∃ u F p, setup n rem = .ok (leavesOf n rem, true, true, F, p) ∧ Start n rem u F p := by
  have hv : Ram.Valid ([] : List Hash32) ((leavesOf n rem).map Prod.fst) [] := by
    rw [leavesOf_fst]
    refine ⟨List.Pairwise.nil, by simp, hashesOf_nodup (by omega), by simp [survivors], by simp, ?_⟩
    rw [hashesOf_length]
    simp only [List.length_nil]
    omega
  have h0 : Ram.Represents (Ram.mk 0 : RamForest Hash32) [] := Ram.mk_inv.represents (f := leafFn HashOps.zero []) (by omega)
  obtain ⟨u, F, a1, a2, a3⟩ := C56_order (Ram.mk 0) [] Ram.Run.empty [] h0 (leavesOf n rem) [] hv
  have hp : Acc.prove Ram.vt (Ram.mk 0 : RamForest Hash32) [] = .ok (some (BatchProof.mk' [] [])) := by rfl
  obtain ⟨p1, u', F', p2, L', b1, b2, b3, -, b4, -⟩ := C23_apply (Ram.mk 0) [] (Pol.mk 0) Sync.empty [] h0 [] (BatchProof.mk' [] []) hp
    (leavesOf n rem) (leavesOf n rem) rfl hv [] rfl
  obtain rfl : Pol.mk 0 = p1 := by
    obtain ⟨A, hA⟩ := mk_ok (H := Hash32) (leafFn HashOps.zero [])
    rcases verify_ok hA (by omega) (BatchProof.mk' [] []) [] with ⟨e, -⟩ | ⟨e, -⟩ | ⟨e, -⟩ | ⟨s', e, -⟩ | ⟨s', A1, e, hne, -⟩
    · rw [e] at b1; simp at b1
    · rw [e] at b1; simpa using b1
    · rw [e] at b1; simp at b1
    · rw [e] at b1; simp at b1
    · exact absurd rfl hne
  have hH := Held.later Held.empty Sync.empty h0 Verifies.none hv rfl (.inl (by simp)) b2 b3
  have e0 : (fun x => (False ∧ x ∈ survivors ([] : List Hash32) []) ∨ (x, true) ∈ leavesOf n rem) = fun x => ∃ i ∈ rem, x = setHash i := by
    funext x
    apply propext
    simp only [false_and, false_or]
    unfold leavesOf
    rw [List.mem_map]
    constructor
    · rintro ⟨i, hi, e⟩
      simp only [Prod.mk.injEq, decide_eq_true_eq] at e
      exact ⟨i, e.2, e.1.symm⟩
    · rintro ⟨i, hi, rfl⟩
      exact ⟨i, List.mem_range.2 (hr i hi), by simp [hi]⟩
  rw [e0] at hH
  have hT := Track.later Track.empty Sync.empty h0 Verifies.none hv rfl (.inl (by simp)) b2 b3 (L' := L') b4
  have e1 : (fun x => (False ∧ x ∈ survivors ([] : List Hash32) [] ∧ SibIn ([] : List Hash32) (fun _ => False) x ∧
      SibIn (L'.take (([] : List Hash32).length - ([] : List ℕ).length)) (fun _ => False) x) ∨ (x, true) ∈ leavesOf n rem) =
      fun x => ∃ i ∈ rem, x = setHash i := by
    rw [← e0]
    funext x
    simp only [false_and]
  rw [e0, e1] at hT
  replace b2 : Ram.modify (Ram.mk 0) (leavesOf n rem) [] = .ok (true, some u', F') := b2
  replace b3 : Pol.modify (Pol.mk 0) (leavesOf n rem) [] = .ok (true, p2) := b3
  rw [a1] at b2
  simp only [Except.ok.injEq, Prod.mk.injEq, Option.some.injEq, true_and] at b2
  obtain ⟨rfl, rfl⟩ := b2
  have hd : deleteLeaves ([] : List Hash32) [] = [] := C56_nothing [] (by simp)
  rw [hd, List.nil_append, leavesOf_fst] at a3
  refine ⟨u, F, p2, ?_, a2, a3, hH, hT, a1, b3⟩
  unfold setup
  rw [Tests.leaves_ok (by omega), ok_bind, testLeaves_of, rememberAt_ok rem [] hr, ok_bind, List.append_nil]
  dsimp only
  rw [a1, ok_bind]
  dsimp only
  rw [b3, ok_bind]
  rfl

namespace Start
variable {n : ℕ} {rem : List ℕ} {u : UndoBatch Hash32} {F : RamForest Hash32} {p : Pollard Hash32}

/-- The forest's proof of some of the leaves, which the pollard accepts. -/
theorem prove (h : Start n rem u F p) (hn : n < 2 ^ 31) {D : List ℕ} (hD : D.Pairwise (· < ·)) (hb : ∀ t ∈ D, t < n) :
    ∃ proof p', Acc.prove Ram.vt F (D.map setHash) = .ok (some proof) ∧ proof.sorted = D ∧
      Pol.verify p proof (D.map setHash) = .ok (true, p') ∧ Sync F [(u, Ram.mk 0)] p' ∧ proof.targets = D ∧ ¬ Collision p' (hashesOf n) := by
  have hn : n ≤ 2 ^ 31 := by omega
  obtain ⟨proof, a1, a2, a3, a4⟩ := prove_ok hn h.run h.rep (hD.imp (fun h => by omega)) hb
  have a5 : proof.sorted = D := a4.eq_of_pairwise (fun x y _ _ h h' => absurd h' (by omega)) a3 hD
  obtain ⟨p', b1, b2, b3⟩ := C24_complete F _ p h.held.sync _ h.rep _ proof a1 (D.map setHash) (by rw [a5]; exact at_hashes hb)
  exact ⟨proof, p', a1, a5, b1, b3, a2, b2⟩

end Start

/-- A modification and its undoing, compared with a forest that stays as it is. -/
theorem there_and_back {F G : RamForest Hash32} {st st' : List (UndoBatch Hash32 × RamForest Hash32)} {L : List Hash32} (h : Ram.Run F st)
    (hL : Ram.Represents F L) (h' : Ram.Run G st') (hL' : Ram.Represents G L) {leaves : List (Leaf Hash32)} {D : List ℕ}
    (hv : Ram.Valid L (leaves.map Prod.fst) D) :
    ∃ u F1 F2, Ram.modify F leaves D = .ok (true, some u, F1) ∧
      Ram.equal F1 G = .ok (decide (deleteLeaves L D ++ leaves.map Prod.fst = L)) ∧
      Ram.undo F1 u = .ok (true, F2) ∧ Ram.equal F2 G = .ok true ∧ Ram.Run F2 st ∧ Ram.Represents F2 L := by
  obtain ⟨u, F1, a1, a2, a3⟩ := C56_order F _ h _ hL leaves D hv
  obtain ⟨u1, F', F2, b1, b2, b3, -⟩ := C20_undo F _ h _ hL leaves D hv
  rw [a1] at b1
  simp only [Except.ok.injEq, Prod.mk.injEq, Option.some.injEq, true_and] at b1
  obtain ⟨rfl, rfl⟩ := b1
  have hr := Ram.Run.undo a2 b2
  refine ⟨u, F1, F2, a1, C48_forest _ _ _ _ a2 h' _ _ a3 hL', b2, ?_, hr, b3⟩
  rw [C48_forest _ _ _ _ hr h' _ _ b3 hL', decide_eq_true rfl]

/-- The forest's proof of some of the leaves. -/
theorem proof_of {F : RamForest Hash32} {st : List (UndoBatch Hash32 × RamForest Hash32)} {L : List Hash32} (h : Ram.Run F st)
    (hL : Ram.Represents F L) {hs : List Hash32} (hd : hs.Nodup) (hm : ∀ x ∈ hs, x ∈ L) :
    ∃ proof, Acc.prove Ram.vt F hs = .ok (some proof) ∧ proof.sorted.Pairwise (· < ·) ∧ (∀ t ∈ proof.sorted, t < L.length) ∧
      proof.sorted.length = hs.length ∧ ∀ t ∈ proof.sorted, ∀ x, L[t]? = some x → x ∈ hs := by
  obtain ⟨r, e1, e2, e3⟩ := C22_prove F st h L hL hs
  obtain ⟨proof, rfl⟩ := Option.isSome_iff_exists.1 (e2.2 ⟨hd, hm⟩)
  obtain ⟨a1, a2, a3, -⟩ := e3 proof rfl
  have key : ∀ t ∈ proof.sorted, ∃ x ∈ hs, L[t]? = some x := by
    intro t ht
    have : L[t]? ∈ hs.map some := by
      rw [← a1]
      exact List.mem_map_of_mem (a3.mem_iff.1 ht)
    obtain ⟨x, hx, e⟩ := List.mem_map.1 this
    exact ⟨x, hx, e.symm⟩
  refine ⟨proof, e1, a2, ?_, ?_, ?_⟩
  · intro t ht
    obtain ⟨x, -, e⟩ := key t ht
    exact (List.getElem?_eq_some_iff.1 e).1
  · rw [a3.length_eq]
    simpa using congrArg List.length a1
  · intro t ht x hx
    obtain ⟨y, hy, e⟩ := key t ht
    rw [e] at hx
    exact Option.some.inj hx ▸ hy

theorem deleteLeaves_length {L : List Hash32} {D : List ℕ} (hD : D.Pairwise (· < ·)) (hb : ∀ t ∈ D, t < L.length) (hl : L.length ≤ 2 ^ 62) :
    (deleteLeaves L D).length = L.length - D.length := by
  rw [(C56_survivors L D hD hb hl).length_eq, survivors_length hl hD hb]

end Setup

/-- Decoding into a new object what was encoded. -/
theorem obj_trip {big : Bool} {prev u : UndoBatch Hash32} {bytes : List Byte} (o : Object.UndoObj)
    (h : Batch.unserializeUndo big prev bytes = .ok (true, u)) : Object.UndoObj.unserialize big o bytes = .ok (true, Object.UndoObj.of u) := by
  unfold Batch.unserializeUndo at h
  unfold Object.UndoObj.unserialize
  by_cases h8 : bytes.length < 8
  · rw [if_pos h8] at h; simp at h
  rw [if_neg h8] at h ⊢
  dsimp only at h ⊢
  obtain ⟨a, ha, h⟩ := bind_eq_ok.1 h
  obtain ⟨b, hb, h⟩ := bind_eq_ok.1 h
  obtain ⟨c, hc, h⟩ := bind_eq_ok.1 h
  obtain ⟨d, hd, h⟩ := bind_eq_ok.1 h
  rw [ha, ok_bind, hb, ok_bind, hc, ok_bind, hd, ok_bind]
  split at h
  · simp [pure, Except.pure] at h
  · rename_i hl
    rw [if_neg hl]
    obtain ⟨e, he, h⟩ := bind_eq_ok.1 h
    obtain ⟨f, hf, h⟩ := bind_eq_ok.1 h
    obtain ⟨g, hg, h⟩ := bind_eq_ok.1 h
    rw [he, ok_bind, hf, ok_bind, hg, ok_bind]
    simp only [pure, Except.pure, Except.ok.injEq, Prod.mk.injEq, true_and] at h
    subst h
    rfl

end Suite

section Any
variable [HashOps Hash32]
open Suite

/-- C79: the test `simple_batch_proof` passes for every number of leaves and every set of leaves. -/
theorem C79_batch_proof (n : ℕ) (hn : n < 2 ^ 31) (D : List ℕ) (hD : D.Pairwise (· < ·)) (hb : ∀ t ∈ D, t < n) :
    simpleBatchProof n D = .ok [true] := by
  obtain ⟨u, F, p, h1, h2⟩ := setup_ok hn (rem := []) (by simp)
  obtain ⟨proof, p', a1, -, a3, -⟩ := h2.prove hn hD hb
  unfold simpleBatchProof
  rw [h1, ok_bind]
  dsimp only
  rw [hashesAt_ok _ _ hb, ok_bind, a1, ok_bind]
  simp only [Bench.proofOf, Option.getD_some]
  rw [a3, ok_bind]
  rfl

/-- C79: the test `pollard_restore` passes for every number of leaves and every set of leaves. -/
theorem C79_restore (n : ℕ) (hn : n < 2 ^ 31) (D : List ℕ) (hD : D.Pairwise (· < ·)) (hb : ∀ t ∈ D, t < n) :
    pollardRestore n D = .ok [true, true, true] := by
  obtain ⟨u, F, p, h1, h2⟩ := setup_ok hn (rem := []) (by simp)
  obtain ⟨proof, p', a1, a2, a3, a4, -⟩ := h2.prove hn hD hb
  obtain ⟨n1, rs, n2, n3⟩ := C23_agree F _ p' a4
  obtain ⟨rs', foo, d1, d2, -, -, d3⟩ := C29_restore F _ h2.run
  rw [n2] at d1
  obtain rfl := Except.ok.inj d1
  obtain ⟨q, e1⟩ := C29_accepts F _ h2.run _ h2.rep rs foo n2 d2 _ proof a1 (D.map setHash) (by rw [a2]; exact at_hashes hb)
  have hc : F.numLeaves = n := by rw [h2.rep.count, hashesOf_length]
  rw [hc] at d2
  unfold pollardRestore
  rw [h1, ok_bind]
  dsimp only
  rw [hashesAt_ok _ _ hb, ok_bind, a1, ok_bind]
  simp only [Bench.proofOf, Option.getD_some]
  rw [a3, ok_bind]
  dsimp only
  rw [n3, ok_bind, d2, ok_bind, e1, ok_bind]
  rfl

/-- C79: the test `singular_leaf_prove` passes for every number of leaves: every leaf is proved and verified by the pollard, which is
pruned each time. -/
theorem C79_each (n : ℕ) (hn : n < 2 ^ 31) : singularLeafProve n = .ok (List.replicate n true) := by
  obtain ⟨u, F, p, h1, h2⟩ := setup_ok hn (rem := []) (by simp)
  have key : ∀ (is : List ℕ) (p : Pollard Hash32), (∀ i ∈ is, i < n) → Sync F [(u, Ram.mk 0)] p →
      proveAll F (is.map fun i => (setHash i, decide (i ∈ ([] : List ℕ)))) p = .ok (List.replicate is.length true) := by
    intro is
    induction is with
    | nil => intro p _ _; rfl
    | cons i is ih =>
      intro p hi hp
      obtain ⟨proof, p', a1, -, a3, a4⟩ := C24_positions F _ p hp _ h2.rep [i] (by simp) [setHash i]
        (at_hashes (D := [i]) (fun t ht => hi t (by simpa using Or.inl (List.mem_singleton.1 ht))))
      obtain ⟨p2, rs, k1, -, -, -, -, -, k2⟩ := C28_prune F _ p' a4
      rw [List.map_cons, proveAll]
      dsimp only
      rw [a1, ok_bind]
      simp only [Bench.proofOf, Option.getD_some]
      rw [a3, ok_bind]
      dsimp only
      rw [k1, ok_bind, ih p2 (fun j hj => hi j (by simp [hj])) k2, ok_bind]
      rfl
  unfold singularLeafProve
  rw [h1, ok_bind]
  dsimp only
  have := key (List.range n) p (fun i hi => List.mem_range.1 hi) h2.held.sync
  rw [List.length_range] at this
  exact this

/-- C79: the test `batchproof_serialization` passes for every number of leaves and up to two million leaves to prove, in any order. -/
theorem C79_serialization (big : Bool) (n : ℕ) (hn : n < 2 ^ 31) (D : List ℕ) (hD : D.Nodup) (hb : ∀ t ∈ D, t < n)
    (hk : D.length ≤ 2000000) : batchproofSerialization big n D = .ok [true, true, true] := by
  obtain ⟨u, F, p, h1, h2⟩ := setup_ok hn (rem := []) (by simp)
  obtain ⟨proof, a1, -⟩ := prove_ok (by omega) h2.run h2.rep hD hb
  obtain ⟨bytes, b1, -, b3⟩ := wire_trip big big h2.run h2.rep (fun _ => by rw [hashesOf_length]; omega) (by simpa using hk) a1 []
  replace b3 : Batch.unserialize big (BatchProof.mk' [] []) bytes = .ok (true, proof) := b3
  have e := (C48_proof proof proof).1.2 ⟨rfl, rfl⟩
  unfold batchproofSerialization
  rw [Tests.leaves_ok (by omega), ok_bind, testLeaves_of, h2.made, ok_bind]
  dsimp only
  rw [hashesAt_ok _ _ hb, ok_bind, a1, ok_bind]
  simp only [Bench.proofOf, Option.getD_some]
  rw [b1, ok_bind, b3, ok_bind]
  dsimp only
  rw [e]
  rfl

/-- C79: the test `ramforest_disk` passes for every number of leaves and every leaf: the forest opened from the file makes the same
proof. -/
theorem C79_disk (big : Bool) (n : ℕ) (hn : n < 2 ^ 31) (t : ℕ) (ht : t < n) :
    ramforestDisk big n t = .ok [true, true, true, true, true, true] := by
  obtain ⟨u, F, p, -, h2⟩ := setup_ok hn (rem := []) (by simp)
  have hb : ∀ i ∈ [t], i < n := by simpa using ht
  obtain ⟨proof, p', a1, -, a3, -⟩ := h2.prove hn (D := [t]) (by simp) hb
  obtain ⟨s, s', file, c1, -⟩ := C31_create big big
  have hs : s = Ram.mk 0 := by
    unfold File.create at c1
    obtain ⟨x, -, hx⟩ := bind_eq_ok.1 c1
    exact (Prod.ext_iff.1 (Except.ok.inj hx)).1.symm
  subst hs
  have hlen : (hashesOf n).length < 2 ^ 31 := by rw [hashesOf_length]; exact hn
  obtain ⟨bytes, F', -, f2, f3, f4, -⟩ := C31_file h2.run h2.rep hlen file big big
  have hre := C31_reopen h2.run (by rw [h2.rep.count]; exact hlen) file big big
  rw [f2, ok_bind, f3] at hre
  have hr' : Ram.Run F' [] := Ram.Run.reopen h2.run hre.symm (by simp) (by simp)
  have e1 := C22_same F' F _ _ hr' h2.run _ f4 h2.rep ([t].map setHash)
  rw [a1] at e1
  have e := (C48_proof proof proof).1.2 ⟨rfl, rfl⟩
  unfold ramforestDisk
  rw [c1, ok_bind]
  dsimp only
  rw [Tests.leaves_ok (by omega), ok_bind, testLeaves_of, h2.made, ok_bind]
  dsimp only
  rw [h2.grown, ok_bind]
  dsimp only
  rw [hashesAt_ok _ _ hb, ok_bind, a1, ok_bind]
  simp only [Bench.proofOf, Option.getD_some]
  rw [a3, ok_bind]
  dsimp only
  rw [f2, ok_bind, f3, ok_bind, e1, ok_bind]
  simp only [Option.getD_some]
  rw [e]
  rfl

/-- C79: the test `simple_pollard_prove` passes for every number of leaves and every leaf: a pollard that remembers the leaf makes the
forest's proof of it, which a pollard that remembers nothing accepts. -/
theorem C79_pollard_prove (n : ℕ) (hn : n < 2 ^ 31) (t : ℕ) (ht : t < n) :
    simplePollardProve n t = .ok [true, true, true, true, true, true] := by
  have hb : ∀ i ∈ [t], i < n := by simpa using ht
  obtain ⟨u, F, p, h1, h2⟩ := setup_ok hn hb
  obtain ⟨v, F', q, -, k2⟩ := setup_ok hn (rem := []) (by simp)
  obtain ⟨proof, p', a1, -, a3, -⟩ := k2.prove hn (D := [t]) (by simp) hb
  have e1 := C22_same F F' _ _ h2.run k2.run _ h2.rep k2.rep ([t].map setHash)
  rw [a1] at e1
  obtain ⟨proof', g1, g2⟩ := C30_partial F _ p _ _ h2.track ([t].map setHash) (by simp) (by simp)
  rw [e1] at g2
  obtain rfl : proof = proof' := by simpa using g2
  have e := (C48_proof proof proof).1.2 ⟨rfl, rfl⟩
  unfold simplePollardProve
  rw [h1, ok_bind]
  dsimp only
  rw [hashesAt_ok _ _ hb, ok_bind, e1, ok_bind, g1, ok_bind, Tests.leaves_ok (by omega), ok_bind, testLeaves_of, k2.grown, ok_bind]
  simp only [Bench.proofOf, Option.getD_some]
  rw [a3, ok_bind]
  dsimp only
  rw [e]
  rfl

/-- C79: the test `simple` passes for every number of leaves and every set of at most 2^25 leaves to delete, and the roots before and
after are those of the leaves. -/
theorem C79_simple (big : Bool) (n : ℕ) (hn : n < 2 ^ 31) (D : List ℕ) (hD : D.Pairwise (· < ·)) (hb : ∀ t ∈ D, t < n)
    (hk : D.length ≤ 2 ^ 25) :
    simple big n D = .ok (List.replicate 12 true, merkleRoots HashOps.ph (leafFn HashOps.zero (hashesOf n)) n,
      merkleRoots HashOps.ph (leafFn HashOps.zero (deleteLeaves (hashesOf n) D)) (n - D.length)) := by
  obtain ⟨u, F, p, h1, h2⟩ := setup_ok hn (rem := []) (by simp)
  obtain ⟨proof, p1, a1, a2, a3, a4, a5, a6⟩ := h2.prove hn hD hb
  have hv := valid_del hn hD hb
  obtain ⟨u', F', b1, b2, b3⟩ := C56_order F _ h2.run _ h2.rep [] D hv
  rw [List.map_nil, List.append_nil] at b3
  obtain ⟨u1, F1, F2, c1, c2, c3, -⟩ := C20_undo F _ h2.run _ h2.rep [] D hv
  rw [b1] at c1
  simp only [Except.ok.injEq, Prod.mk.injEq, Option.some.injEq, true_and] at c1
  obtain ⟨rfl, rfl⟩ := c1
  obtain ⟨u1, F1, d1, d2, d3, d4⟩ := C46_batch F _ h2.run _ h2.rep [] D hv
  rw [b1] at d1
  simp only [Except.ok.injEq, Prod.mk.injEq, Option.some.injEq, true_and] at d1
  obtain ⟨rfl, rfl⟩ := d1
  obtain ⟨bytes, e1, e2⟩ := C46_roundtrip big big F' _ b2 u' F (by simp) (by rw [d3]; exact hk) (by rw [d2]; simp) ⟨0, [], []⟩ []
  have e3 := obj_trip Object.UndoObj.new e2
  have e4 : Object.UndoObj.serialize big (Object.UndoObj.of u') [] = .ok bytes := e1
  have e5 : Object.UndoObj.eq (Object.UndoObj.of u') (Object.UndoObj.of u') = .ok true := by
    have : Object.UndoObj.eq (Object.UndoObj.of u') (Object.UndoObj.of u') = .ok (Batch.undoEq u' u') := rfl
    rw [this, (C48_batch u' u').2 rfl]
  obtain ⟨u1, F1, p2, f1, f2, f3⟩ := C53_modify_partial F _ p p1 h2.held.sync _ h2.rep _
    (Verifies.next Verifies.none a3 (fun _ => a6)) [] [] D hv rfl (.inl (fun t ht => .inl ⟨setHash t, hashesOf_get (hb t ht),
      .inr ⟨rfl, List.mem_map_of_mem ht⟩⟩))
  rw [b1] at f1
  simp only [Except.ok.injEq, Prod.mk.injEq, Option.some.injEq, true_and] at f1
  obtain ⟨rfl, rfl⟩ := f1
  obtain ⟨-, rs, g1, g2⟩ := C23_agree F _ p h2.held.sync
  obtain ⟨-, rs', k1, k2⟩ := C23_agree F' _ p2 f3
  have hlen : (deleteLeaves (hashesOf n) D).length = n - D.length := by
    have hs := (C56_survivors (hashesOf n) D hD (by rw [hashesOf_length]; exact hb) (by rw [hashesOf_length]; omega)).length_eq
    rw [hs, survivors_length (by rw [hashesOf_length]; omega) hD (by rw [hashesOf_length]; exact hb), hashesOf_length]
  have r1 : rs = merkleRoots HashOps.ph (leafFn HashOps.zero (hashesOf n)) n := by
    rw [h2.rep.roots, hashesOf_length] at g1
    exact (Except.ok.inj g1).symm
  have r2 : rs' = merkleRoots HashOps.ph (leafFn HashOps.zero (deleteLeaves (hashesOf n) D)) (n - D.length) := by
    rw [b3.roots, hlen] at k1
    exact (Except.ok.inj k1).symm
  have r3 : Ram.roots F2 = .ok rs := by rw [c3.roots, ← h2.rep.roots, g1]
  unfold simple
  rw [h1, ok_bind]
  dsimp only
  rw [g2, ok_bind, g1, ok_bind, hashesAt_ok _ _ hb, ok_bind, a1, ok_bind]
  simp only [Bench.proofOf, Option.getD_some]
  rw [a3, ok_bind]
  dsimp only
  rw [a2, b1, ok_bind]
  dsimp only
  rw [f2, ok_bind]
  dsimp only
  rw [k2, ok_bind, k1, ok_bind, Option.getD_some, e4, ok_bind, e3, ok_bind]
  dsimp only
  rw [e5, ok_bind, c2, ok_bind]
  dsimp only
  rw [r3, ok_bind, ← r1, ← r2]
  simp [pure, Except.pure, List.replicate]

/-- C79: the test `ramforest_undo` passes for every number of leaves added first and later, and for all sets of leaves to delete: the
first must not be empty and the second must not be unless there are leaves to add. -/
theorem C79_undo (n m : ℕ) (hn : n + m < 2 ^ 31) (D D' : List ℕ) (hD : D.Nodup) (hb : ∀ t ∈ D, t < n) (hD' : D'.Nodup)
    (hb' : ∀ t ∈ D', t < n) (hdis : ∀ t ∈ D', t ∉ D) (h0 : D ≠ []) (h1 : D' ≠ [] ∨ 0 < m) :
    ramforestUndo n m D D' = .ok (List.replicate 17 true) := by
  have hinj : ∀ i j, i < n + m → j < n + m → setHash i = setHash j → i = j := fun i j hi hj e => setHash_inj (by omega) (by omega) e
  have hv : Ram.Valid ([] : List Hash32) ((testLeaves n 0).map Prod.fst) [] := by
    rw [testLeaves_fst]
    refine ⟨List.Pairwise.nil, by simp, hashesOf_nodup (by omega), by simp [survivors], by simp, ?_⟩
    rw [hashesOf_length]
    simp only [List.length_nil]
    omega
  have hz : Ram.Represents (Ram.mk 0 : RamForest Hash32) [] := Ram.mk_inv.represents (f := leafFn HashOps.zero []) (by omega)
  obtain ⟨u0, F1, F2, a1, -, a2, a3, a4, a5⟩ := there_and_back Ram.Run.empty hz Ram.Run.empty hz hv
  have hd0 : deleteLeaves ([] : List Hash32) [] = [] := C56_nothing [] (by simp)
  obtain ⟨u1, F3, b1, b2, b3⟩ := C56_order F2 _ a4 _ a5 (testLeaves n 0) [] hv
  obtain ⟨u2, F1', c1, c2, c3⟩ := C56_order (Ram.mk 0) _ Ram.Run.empty _ hz (testLeaves n 0) [] hv
  rw [a1] at c1
  simp only [Except.ok.injEq, Prod.mk.injEq, Option.some.injEq, true_and] at c1
  obtain ⟨rfl, rfl⟩ := c1
  rw [hd0, List.nil_append, testLeaves_fst] at b3 c3
  -- the first deletion
  have e1 : (D.map setHash).Nodup := hD.map_on (fun i hi j hj e => hinj i j (by have := hb i hi; omega) (by have := hb j hj; omega) e)
  obtain ⟨proof, d1, d2, d3, d4, d5⟩ := proof_of b2 b3 e1 (fun x hx => by
    obtain ⟨i, hi, rfl⟩ := List.mem_map.1 hx
    exact List.mem_map_of_mem (List.mem_range.2 (hb i hi)))
  have hlen : (hashesOf n).length ≤ 2 ^ 62 := by rw [hashesOf_length]; omega
  have hv1 : Ram.Valid (hashesOf n) (([] : List (Leaf Hash32)).map Prod.fst) proof.sorted := by
    refine valid_del (by omega) d2 ?_
    rw [hashesOf_length] at d3
    exact d3
  have hpos : 0 < proof.sorted.length := by
    rw [d4, List.length_map]
    exact List.length_pos_iff.2 h0
  obtain ⟨u3, F4, F5, f1, f2, f3, f4, f5, f6⟩ := there_and_back b2 b3 c2 c3 hv1
  have hL1 := deleteLeaves_length d2 d3 hlen
  have hle : proof.sorted.length ≤ n := by
    have := hD.length_le_of_subset (l₂ := List.range n) (fun t ht => List.mem_range.2 (hb t ht))
    rw [List.length_range] at this
    rw [d4, List.length_map]
    exact this
  have hne : deleteLeaves (hashesOf n) proof.sorted ++ ([] : List (Leaf Hash32)).map Prod.fst ≠ hashesOf n := by
    intro e
    have := congrArg List.length e
    rw [List.map_nil, List.append_nil, hL1, hashesOf_length] at this
    omega
  rw [decide_eq_false hne] at f2
  obtain ⟨u4, F6, g1, g2, g3⟩ := C56_order F5 _ f5 _ f6 [] _ hv1
  obtain ⟨u5, G2, k1, k2, k3⟩ := C56_order F1 _ c2 _ c3 [] _ hv1
  rw [List.map_nil, List.append_nil] at g3 k3
  -- the second
  have hsub : ∀ x ∈ deleteLeaves (hashesOf n) proof.sorted, x ∈ hashesOf n := by
    intro x hx
    obtain ⟨i, e, -⟩ := mem_survivors.1 ((C56_survivors _ _ d2 d3 hlen).mem_iff.1 hx)
    exact List.mem_of_getElem? e
  have e2 : (D'.map setHash).Nodup := hD'.map_on (fun i hi j hj e => hinj i j (by have := hb' i hi; omega) (by have := hb' j hj; omega) e)
  obtain ⟨proof', l1, l2, l3, l4, l5⟩ := proof_of g2 g3 e2 (fun x hx => by
    obtain ⟨i, hi, rfl⟩ := List.mem_map.1 hx
    refine (C56_survivors _ _ d2 d3 hlen).mem_iff.2 (mem_survivors.2 ⟨i, hashesOf_get (hb' i hi), fun hm => ?_⟩)
    obtain ⟨j, hj, e⟩ := List.mem_map.1 (d5 i hm _ (hashesOf_get (hb' i hi)))
    have := hinj j i (by have := hb j hj; omega) (by have := hb' i hi; omega) e
    exact hdis i hi (this ▸ hj))
  have hmore : (testLeaves m n).map Prod.fst = (List.range' n m).map setHash := by
    rw [testLeaves_eq, List.map_map]; rfl
  have hv2 : Ram.Valid (deleteLeaves (hashesOf n) proof.sorted) ((testLeaves m n).map Prod.fst) proof'.sorted := by
    rw [hmore]
    refine ⟨l2, l3, ?_, ?_, fun _ => by rw [hL1, hashesOf_length]; omega, ?_⟩
    · refine (List.nodup_range').map_on (fun i hi j hj e => ?_)
      have := List.mem_range'_1.1 hi
      have := List.mem_range'_1.1 hj
      exact hinj i j (by omega) (by omega) e
    · intro x hx hx'
      obtain ⟨i, e, -⟩ := mem_survivors.1 hx
      obtain ⟨j, hj, rfl⟩ := List.mem_map.1 (hsub x (List.mem_of_getElem? e))
      obtain ⟨k, hk, e⟩ := List.mem_map.1 hx'
      have := List.mem_range'_1.1 hk
      have := List.mem_range.1 hj
      have := hinj k j (by omega) (by omega) e
      omega
    · rw [hL1, hashesOf_length, List.length_map, List.length_range']
      omega
  obtain ⟨u6, F7, F8, m1, m2, m3, m4, -, -⟩ := there_and_back g2 g3 k2 k3 hv2
  have hne' : deleteLeaves (deleteLeaves (hashesOf n) proof.sorted) proof'.sorted ++ (testLeaves m n).map Prod.fst ≠
      deleteLeaves (hashesOf n) proof.sorted := by
    intro e
    by_cases hm : 0 < m
    · have : setHash n ∈ deleteLeaves (hashesOf n) proof.sorted := by
        rw [← e, hmore]
        exact List.mem_append_right _ (List.mem_map_of_mem (List.mem_range'_1.2 (by omega)))
      obtain ⟨j, hj, e⟩ := List.mem_map.1 (hsub _ this)
      have := List.mem_range.1 hj
      have := hinj j n (by omega) (by omega) e
      omega
    · have hd : D' ≠ [] := by
        rcases h1 with h | h
        · exact h
        · omega
      have := congrArg List.length e
      rw [List.length_append, deleteLeaves_length l2 l3 (by rw [hL1, hashesOf_length]; omega), hmore, List.length_map,
        List.length_range'] at this
      have hp : 0 < proof'.sorted.length := by
        rw [l4, List.length_map]
        exact List.length_pos_iff.2 hd
      have hq : 0 < (deleteLeaves (hashesOf n) proof.sorted).length := by
        obtain ⟨t, ht⟩ := List.exists_mem_of_length_pos hp
        have := l3 t ht
        omega
      omega
  rw [decide_eq_false hne'] at m2
  unfold ramforestUndo
  dsimp only
  rw [Tests.leaves_ok (by omega), ok_bind, Tests.leaves_ok (by omega), ok_bind, a1, ok_bind]
  dsimp only
  rw [Option.getD_some, a2, ok_bind]
  dsimp only
  rw [a3, ok_bind, b1, ok_bind]
  dsimp only
  rw [ok_bind]
  dsimp only
  rw [testLeaves_of, hashesAt_ok _ _ hb, ok_bind, d1, ok_bind]
  simp only [Bench.proofOf, Option.getD_some]
  rw [f1, ok_bind]
  dsimp only
  rw [f2, ok_bind, Option.getD_some, f3, ok_bind]
  dsimp only
  rw [f4, ok_bind, g1, ok_bind]
  dsimp only
  rw [k1, ok_bind]
  dsimp only
  rw [hashesAt_ok _ _ hb', ok_bind, l1, ok_bind, Option.getD_some, m1, ok_bind]
  dsimp only
  rw [m2, ok_bind, Option.getD_some, m3, ok_bind]
  dsimp only
  rw [m4, ok_bind]
  simp [pure, Except.pure, List.replicate]

/-- C79: the test `simple_batchproof_verify_and_delete` passes for every number of leaves and all orders of a set of leaves other than
the sorted one: both objects refuse to delete unsorted targets, delete the sorted ones and have the same roots afterwards, and the pollard
rejects the hashes in the wrong order unless it then holds a collision. Its last check, that the roots changed, asks for the absence of
a collision too, and is returned as it is. -/
theorem C79_delete (n : ℕ) (hn : n < 2 ^ 31) (order D : List ℕ) (hD : D.Pairwise (· < ·)) (hb : ∀ t ∈ D, t < n) (ho : order.Perm D)
    (hne : order ≠ D) :
    ∃ (F : RamForest Hash32) (p : Pollard Hash32) (proof : BatchProof Hash32) (p1 : Pollard Hash32) (b : Bool),
      setup n [] = .ok (leavesOf n [], true, true, F, p) ∧ Acc.prove Ram.vt F (order.map setHash) = .ok (some proof) ∧
      Pol.verify p proof (order.map setHash) = .ok (b, p1) ∧ (b = true → Collision p1 (hashesOf n)) ∧
      (b = false → verifyAndDelete n order D = .ok ([true, true, true, true, true, true, true, true, true,
        merkleRoots HashOps.ph (leafFn HashOps.zero (deleteLeaves (hashesOf n) D)) (n - D.length) !=
          merkleRoots HashOps.ph (leafFn HashOps.zero (hashesOf n)) n])) := by
  obtain ⟨u, F, p, h1, h2⟩ := setup_ok hn (rem := []) (by simp)
  have hbo : ∀ t ∈ order, t < n := fun t ht => hb t (ho.mem_iff.1 ht)
  obtain ⟨proof, a1, a2, a3, a4⟩ := prove_ok (by omega : n ≤ 2 ^ 31) h2.run h2.rep
    (ho.symm.nodup (hD.imp (fun h => by omega))) hbo
  have a5 : proof.sorted = D := (a4.trans ho).eq_of_pairwise (fun x y _ _ h h' => absurd h' (by omega)) a3 hD
  have hother : (order.map setHash).map some ≠ proof.sorted.map fun t => (hashesOf n)[t]? := by
    rw [a5, ← at_hashes hb]
    intro e
    apply hne
    have e' := List.map_injective_iff.2 (Option.some_injective _) e
    refine List.ext_getElem ho.length_eq (fun i i1 i2 => ?_)
    have hg := List.getElem_of_eq e' (i := i) (by rw [List.length_map]; exact i1)
    rw [List.getElem_map, List.getElem_map] at hg
    have := hbo _ (List.getElem_mem i1)
    have := hb _ (List.getElem_mem i2)
    exact setHash_inj (by omega) (by omega) hg
  obtain ⟨b, p1, b1, b2⟩ := C68_other F _ p h2.held.sync _ h2.rep _ proof a1 _ hother
  refine ⟨F, p, proof, p1, b, h1, a1, b1, b2, ?_⟩
  rintro rfl
  have hs1 : Sync F _ p1 := Sync.verify h2.held.sync h2.rep b1 (by simp)
  obtain ⟨p2, c1, c2, c3⟩ := C24_complete F _ p1 hs1 _ h2.rep _ proof a1 (D.map setHash) (by rw [a5]; exact at_hashes hb)
  have hv := valid_del hn hD hb
  obtain ⟨u', F', d1, d2, d3⟩ := C56_order F _ h2.run _ h2.rep [] D hv
  rw [List.map_nil, List.append_nil] at d3
  obtain ⟨u1, F1, p3, f1, f2, f3⟩ := C53_modify_partial F _ p1 p2 hs1 _ h2.rep _
    (Verifies.next Verifies.none c1 (fun _ => c2)) [] [] D hv rfl (.inl (fun t ht => .inl ⟨setHash t, hashesOf_get (hb t ht),
      .inr ⟨rfl, List.mem_map_of_mem ht⟩⟩))
  rw [d1] at f1
  simp only [Except.ok.injEq, Prod.mk.injEq, Option.some.injEq, true_and] at f1
  obtain ⟨rfl, rfl⟩ := f1
  have hins : ∀ k, ¬ (proof.targets.Pairwise (· < ·) ∧ ∀ t ∈ proof.targets, t < k) := by
    rintro k ⟨hp, -⟩
    rw [a2] at hp
    exact hne (ho.eq_of_pairwise (fun x y _ _ h h' => absurd h' (by omega)) hp hD)
  obtain ⟨-, rs, g1, g2⟩ := C23_agree F _ p h2.held.sync
  obtain ⟨-, rs', k1, k2⟩ := C23_agree F' _ p3 f3
  have r1 : rs = merkleRoots HashOps.ph (leafFn HashOps.zero (hashesOf n)) n := by
    rw [h2.rep.roots, hashesOf_length] at g1
    exact (Except.ok.inj g1).symm
  have r2 : rs' = merkleRoots HashOps.ph (leafFn HashOps.zero (deleteLeaves (hashesOf n) D)) (n - D.length) := by
    rw [d3.roots, deleteLeaves_length hD (by rw [hashesOf_length]; exact hb) (by rw [hashesOf_length]; omega), hashesOf_length] at k1
    exact (Except.ok.inj k1).symm
  unfold verifyAndDelete
  rw [h1, ok_bind]
  dsimp only
  rw [g1, ok_bind, g2, ok_bind, hashesAt_ok _ _ hbo, ok_bind, hashesAt_ok _ _ hb, ok_bind, a1, ok_bind]
  simp only [Bench.proofOf, Option.getD_some]
  rw [b1, ok_bind]
  dsimp only
  rw [c1, ok_bind]
  dsimp only
  rw [Ram.modify_insane F [] _ (hins _), ok_bind]
  dsimp only
  rw [Pol.modify_insane p2 [] _ (hins _), ok_bind]
  dsimp only
  rw [a5, d1, ok_bind]
  dsimp only
  rw [f2, ok_bind]
  dsimp only
  rw [k1, ok_bind, k2, ok_bind, r1, r2]
  simp [pure, Except.pure]

/-! ### Proofs with some of the hashes -/

namespace Suite

theorem mk'_sorted {D : List ℕ} (hD : D.Pairwise (· < ·)) (X : List Hash32) : (BatchProof.mk' D X).sorted = D :=
  List.Perm.eq_of_pairwise (fun x y _ _ h1 h2 => by omega) (sortU64_sorted (hD.imp Nat.ne_of_lt)) hD (Ram.sortU64_perm D)

/-- The forest's proof of some of the leaves, node by node. -/
theorem proof_nodes {F : RamForest Hash32} {st : List (UndoBatch Hash32 × RamForest Hash32)} {n : ℕ} (hn : n < 2 ^ 31) (h : Ram.Run F st)
    (hL : Ram.Represents F (hashesOf n)) {D : List ℕ} (hD : D.Pairwise (· < ·)) (hb : ∀ t ∈ D, t < n) :
    ∃ proof nodes, Acc.prove Ram.vt F (D.map setHash) = .ok (some proof) ∧ proof.sorted = D ∧ proof.targets = D ∧
      ProofNodes (hashesOf n).length D nodes ∧ proof.hashes = nodes.map fun a => node (hashesOf n) a.1 a.2 := by
  obtain ⟨proof, a1, a2, a3, a4⟩ := prove_ok (by omega : n ≤ 2 ^ 31) h hL (hD.imp (fun h => by omega)) hb
  have a5 : proof.sorted = D := a4.eq_of_pairwise (fun x y _ _ h h' => absurd h' (by omega)) a3 hD
  obtain ⟨r, e1, -, e3⟩ := C22_prove F st h _ hL (D.map setHash)
  rw [a1] at e1
  obtain rfl := Except.ok.inj e1
  obtain ⟨-, -, -, nodes, g1, g2, g3⟩ := e3 proof rfl
  rw [a2] at g2
  exact ⟨proof, nodes, a1, a5, a2, ⟨g1, g2⟩, g3⟩

/-- A pollard rejects a proof whose hashes are not among the nodes of the proof in their order, unless a node of the forest is zero or
the pollard then holds a collision. -/
theorem reject {F : RamForest Hash32} {st : List (UndoBatch Hash32 × RamForest Hash32)} {p : Pollard Hash32} (h : Sync F st p)
    {L : List Hash32} (hL : Ram.Represents F L) {D : List ℕ} (hD : D.Pairwise (· < ·)) (h0 : D ≠ []) {nodes : List (ℕ × ℕ)}
    (hN : ProofNodes L.length D nodes) {X : List Hash32} (hX : ¬ X.Sublist (nodes.map fun a => node L a.1 a.2)) (hs : List Hash32) :
    (∃ p', verify p (BatchProof.mk' D X) hs = .ok (false, p')) ∨
      (∃ r i, InForest L.length r i ∧ node L r i = HashOps.zero) ∨
      ∃ p', verify p (BatchProof.mk' D X) hs = .ok (true, p') ∧ Collision p' L := by
  obtain ⟨L0, A, hI⟩ := h.inv
  obtain rfl := hL.unique hI.rep
  rcases verify_ok hI.inv hI.len (BatchProof.mk' D X) hs with ⟨e, -⟩ | ⟨-, ht, -⟩ | ⟨-, -, r, x, q, hq, hz⟩ | ⟨s', e, -⟩ | ⟨s', A1, e, ht, -⟩
  · exact .inl ⟨_, e⟩
  · exact absurd ht h0
  · refine .inr (.inl ⟨r, x, ?_, hz⟩)
    rw [inForest_iff]
    by_contra hx
    rw [hI.inv.out r x hx] at hq; simp at hq
  · exact .inl ⟨_, e⟩
  · refine .inr (.inr ⟨s', e, ?_⟩)
    by_contra hnc
    exact hX (C40_no_junk F st p h L hL (BatchProof.mk' D X) hs ht nodes (by rw [mk'_sorted hD]; exact hN) s' e hnc).1

theorem nodes_nil {n t : ℕ} {nodes : List (ℕ × ℕ)} (hN : ProofNodes n [t] nodes) : nodes = [] ↔ ¬ InForest n 1 (t / 2) := by
  constructor
  · rintro rfl hi
    have := (hN.2 0 (2 * (t / 2) + (1 - t % 2))).2 ⟨t / 2, t % 2, by omega, rfl, hi, ⟨t, by simp, by rw [pow_zero, Nat.div_one]; omega⟩, by
      intro a ha
      rw [List.mem_singleton] at ha
      subst ha
      rw [pow_zero, Nat.div_one]
      omega⟩
    simp at this
  · intro hi
    rw [List.eq_nil_iff_forall_not_mem]
    rintro ⟨r, k⟩ hm
    obtain ⟨j, b, hb, -, hf, ⟨a, ha, e⟩, -⟩ := (hN.2 r k).1 hm
    rw [List.mem_singleton] at ha
    subst ha
    apply hi
    unfold InForest at hf ⊢
    have h1 : a < (2 * j + b + 1) * 2 ^ r := by
      rw [← e]
      exact Nat.lt_mul_of_div_lt (Nat.lt_succ_self _) (Nat.two_pow_pos r)
    have h2 : (2 * j + b + 1) * 2 ^ r ≤ (2 * j + 2) * 2 ^ r := Nat.mul_le_mul_right _ (by omega)
    have h3 : (j + 1) * 2 ^ (r + 1) = 2 * ((j + 1) * 2 ^ r) := by rw [pow_succ]; ring
    have h4 : (2 * j + 2) * 2 ^ r = 2 * ((j + 1) * 2 ^ r) := by ring
    rw [pow_one]
    omega

/-- The cached nodes of a proof of a remembered leaf. -/
theorem cached_of {F : RamForest Hash32} {st : List (UndoBatch Hash32 × RamForest Hash32)} {p : Pollard Hash32} {K R : Hash32 → Prop}
    (h : Track F st p K R) {n : ℕ} (hn : n < 2 ^ 31) (hL : Ram.Represents F (hashesOf n)) {t : ℕ} (ht : t < n) (hR : R (setHash t))
    {nodes : List (ℕ × ℕ)} (hN : ProofNodes (hashesOf n).length [t] nodes) : ∀ a ∈ nodes, known p (hashesOf n) a = true := by
  obtain ⟨proof, g1, g2⟩ := C30_partial F st p K R h [setHash t] (by simp) (by simpa using hR)
  obtain ⟨r, c1, c2, c3⟩ := C60_prove F st p h.sync _ hL [setHash t]
  rw [g1] at c1
  obtain rfl := Except.ok.inj c1
  obtain ⟨ts, d1, -, -, d4⟩ := c2.1 rfl
  obtain ⟨L0, A0, hI⟩ := h.sync.inv
  obtain ⟨proof', a1, a2, -⟩ := prove_ok (by omega : n ≤ 2 ^ 31) hI.run hL (idx := [t]) (by simp) (by simpa using ht)
  have a1' : Acc.prove Ram.vt F [setHash t] = .ok (some proof') := a1
  rw [g2] at a1'
  obtain rfl : proof = proof' := by simpa using a1'
  have hts : ts = [t] := by
    have := (c3 proof rfl).1
    rw [a2, d1] at this
    exact List.map_injective_iff.2 (Option.some_injective _) this
  subst hts
  rintro ⟨r, k⟩ ha
  unfold known
  rw [d4 r k ((hN.2 r k).1 ha)]

theorem mapM_vecGet {X : List Hash32} : ∀ {is : List ℕ}, (∀ i ∈ is, i < X.length) →
    ∃ Y, is.mapM (vecGet X) = .ok Y ∧ Y.map some = is.map fun i => X[i]? := by
  intro is
  induction is with
  | nil => intro _; exact ⟨[], rfl, rfl⟩
  | cons i is ih =>
    intro h
    obtain ⟨Y, e1, e2⟩ := ih (fun j hj => h j (by simp [hj]))
    have hi := h i (by simp)
    refine ⟨X[i] :: Y, ?_, ?_⟩
    · rw [List.mapM_cons, vecGet_ok (List.getElem?_eq_getElem hi), ok_bind, e1]
      rfl
    · rw [List.map_cons, e2, List.map_cons, List.getElem?_eq_getElem hi]

theorem sublist_from : ∀ {X : List Hash32} (k : ℕ) {is : List ℕ}, is.Pairwise (· < ·) → (∀ i ∈ is, k ≤ i ∧ i < k + X.length) →
    ∀ {Y : List Hash32}, Y.map some = is.map (fun i => X[i - k]?) → Y.Sublist X := by
  intro X
  induction X with
  | nil =>
    intro k is _ hb Y h
    cases is with
    | nil => simp at h; simp [h]
    | cons i is => have := hb i (by simp); simp at this; omega
  | cons x X ih =>
    intro k is hs hb Y h
    have shift : ∀ {js : List ℕ}, (∀ i ∈ js, k < i) → js.map (fun i => (x :: X)[i - k]?) = js.map fun i => X[i - (k + 1)]? := by
      intro js hj
      apply List.map_congr_left
      intro i hi
      have := hj i hi
      rw [show i - k = (i - (k + 1)) + 1 from by omega, List.getElem?_cons_succ]
    cases is with
    | nil => simp at h; simp [h]
    | cons i is =>
      cases Y with
      | nil => simp at h
      | cons y Y =>
      have hi := hb i (by simp)
      rw [List.pairwise_cons] at hs
      by_cases hik : i = k
      · subst hik
        have hlt : ∀ j ∈ is, i < j := fun j hj => hs.1 j hj
        rw [List.map_cons, List.map_cons, List.cons.injEq, shift hlt, Nat.sub_self, List.getElem?_cons_zero, Option.some.injEq] at h
        obtain ⟨rfl, h⟩ := h
        refine (ih (i + 1) hs.2 (fun j hj => ?_) h).cons_cons y
        have := hlt j hj
        have := hb j (by simp [hj])
        simp only [List.length_cons] at this
        omega
      · have hlt : ∀ j ∈ i :: is, k < j := by
          intro j hj
          rcases List.mem_cons.1 hj with rfl | hj
          · omega
          · have := hs.1 j hj; omega
        rw [shift hlt] at h
        refine (ih (k + 1) (List.pairwise_cons.2 hs) (fun j hj => ?_) h).cons x
        have := hlt j hj
        have := hb j hj
        simp only [List.length_cons] at this
        omega

theorem sublist_of_sorted {X : List Hash32} {is : List ℕ} (hs : is.Pairwise (· < ·)) (hb : ∀ i ∈ is, i < X.length) {Y : List Hash32}
    (h : Y.map some = is.map fun i => X[i]?) : Y.Sublist X :=
  sublist_from 0 hs (fun i hi => ⟨Nat.zero_le _, by have := hb i hi; omega⟩) h

end Suite

/-- C79: the test `simple_cached_proof` passes for every number of leaves and every leaf, and for all ways to leave out hashes of the
proof: a pollard that remembers a leaf accepts its proof with any of the hashes left out, as often as one likes. The hashes of the proof
must be distinct and not zero. -/
theorem C79_cached (n : ℕ) (hn : n < 2 ^ 31) (t : ℕ) (ht : t < n) (leaves : List (Leaf Hash32)) (b b' : Bool) (F : RamForest Hash32)
    (p : Pollard Hash32) (hset : setup n [t] = .ok (leaves, b, b', F, p)) (proof : BatchProof Hash32)
    (hp : Acc.prove Ram.vt F [setHash t] = .ok (some proof)) (h1 : proof.hashes.Nodup) (h2 : HashOps.zero ∉ proof.hashes)
    (subsets : List (List ℕ)) (hs : ∀ is ∈ subsets, is.Pairwise (· < ·) ∧ ∀ i ∈ is, i < proof.hashes.length) :
    simpleCachedProof n t subsets = .ok (List.replicate subsets.length true) := by
  have hb : ∀ i ∈ [t], i < n := by simpa using ht
  obtain ⟨u, F', p', k1, k2⟩ := setup_ok hn hb
  rw [k1] at hset
  simp only [Except.ok.injEq, Prod.mk.injEq] at hset
  obtain ⟨rfl, rfl, rfl, rfl, rfl⟩ := hset
  obtain ⟨proof', nodes, a1, a2, a3, a4, a5⟩ := proof_nodes hn k2.run k2.rep (D := [t]) (by simp) hb
  have a1' : Acc.prove Ram.vt F' [setHash t] = .ok (some proof') := a1
  rw [hp] at a1'
  obtain rfl : proof = proof' := by simpa using a1'
  unfold simpleCachedProof
  rw [k1, ok_bind]
  dsimp only
  rw [hashesAt_ok _ _ hb, ok_bind, a1, ok_bind]
  simp only [Bench.proofOf, Option.getD_some]
  have key : ∀ (subsets : List (List ℕ)) (p : Pollard Hash32) (K R : Hash32 → Prop), Track F' [(u, Ram.mk 0)] p K R → R (setHash t) →
      (∀ is ∈ subsets, is.Pairwise (· < ·) ∧ ∀ i ∈ is, i < proof.hashes.length) →
      verifySome proof ([t].map setHash) subsets p = .ok (List.replicate subsets.length true) := by
    intro subsets
    induction subsets with
    | nil => intro p K R _ _ _; rfl
    | cons is subsets ih =>
      intro p K R hT hR hs
      obtain ⟨q1, q2⟩ := hs is (by simp)
      obtain ⟨Y, e1, e2⟩ := mapM_vecGet q2
      have hsub := sublist_of_sorted q1 q2 e2
      have hk := cached_of hT hn k2.rep ht hR a4
      rw [a5] at h1 h2 hsub
      obtain ⟨p2, f1, f2⟩ := C40_trim F' _ p hT.sync _ k2.rep (BatchProof.mk' proof.sorted Y) ([t].map setHash) nodes
        (by rw [a2, mk'_sorted (by simp)]; exact a4) (by rw [a2]; rfl) (by rw [a2, mk'_sorted (by simp)]; simp)
        (by rw [a2, mk'_sorted (by simp)]; exact at_hashes hb) h1
        (fun a ha e => h2 (by rw [← e]; exact List.mem_map_of_mem (f := fun a : ℕ × ℕ => node (hashesOf n) a.1 a.2) ha)) hsub
        (fun a ha e => by rw [hk a ha] at e; simp at e)
      rw [verifySome, e1, ok_bind, f1, ok_bind]
      dsimp only
      rw [ih p2 _ _ (Track.verify hT k2.rep f1 (fun _ => f2)) (.inl hR) (fun is hi => hs is (by simp [hi])), ok_bind]
      rfl
  exact key subsets p' _ _ k2.track ⟨t, by simp, rfl⟩ hs

end Any

section Sha
open Suite
attribute [local instance] shaOps

theorem Suite.hashesOf_zero {n : ℕ} : ∀ x ∈ hashesOf n, x ≠ HashOps.zero := by
  intro x hx
  obtain ⟨i, -, rfl⟩ := List.mem_map.1 hx
  intro h
  have := congrArg (fun x : Hash32 => x.val[4]?) h
  have e1 : (Bench.setHash i).val[4]? = some 255 := rfl
  have e2 : (HashOps.zero : Hash32).val[4]? = some 0 := rfl
  rw [e1, e2] at this
  exact absurd this (by decide)

/-- C79: the test `simple_modified_proof` passes for every number of leaves and every leaf with a parent: the proof whose last hash has
been replaced by zero is rejected, unless one can read off a message with digest zero from the forest or a collision of SHA-512/256
from the pollard. For a leaf that is itself a root the proof has no hash and the test is undefined. -/
theorem C79_modified (n : ℕ) (hn : n < 2 ^ 31) (t : ℕ) (ht : t < n) :
    (¬ InForest n 1 (t / 2) → simpleModifiedProof n t = .error .ub) ∧
    (InForest n 1 (t / 2) → simpleModifiedProof n t = .ok [true] ∨ ZeroFound (hashesOf n) ∨
      ∃ F p proof p', setup n [] = .ok (leavesOf n [], true, true, F, p) ∧ Acc.prove Ram.vt F [setHash t] = .ok (some proof) ∧
        verify p (BatchProof.mk' [t] (proof.hashes.set (proof.hashes.length - 1) Fuzz.zeroHash)) [setHash t] = .ok (true, p') ∧
        ShaFound p' (hashesOf n)) := by
  have hb : ∀ i ∈ [t], i < n := by simpa using ht
  obtain ⟨u, F, p, k1, k2⟩ := setup_ok hn (rem := []) (by simp)
  obtain ⟨proof, nodes, a1, a2, a3, a4, a5⟩ := proof_nodes hn k2.run k2.rep (D := [t]) (by simp) hb
  have hnil := nodes_nil a4
  rw [hashesOf_length] at hnil
  have start : simpleModifiedProof n t = (do
      let modified ← vecSet proof.hashes (proof.hashes.length - 1) Fuzz.zeroHash
      let (b, _) ← Pol.verify p (BatchProof.mk' [t] modified) [setHash t]
      return [b == false]) := by
    unfold simpleModifiedProof
    rw [k1, ok_bind]
    dsimp only
    rw [hashesAt_ok _ _ hb, ok_bind, a1, ok_bind]
    simp only [Bench.proofOf, Option.getD_some, a2]
    rfl
  constructor
  · intro hi
    have hn := hnil.2 hi
    rw [start, a5, hn]
    rfl
  · intro hi
    have hne : nodes ≠ [] := fun h => hnil.1 h hi
    have hlen : 0 < proof.hashes.length := by
      rw [a5, List.length_map]
      exact List.length_pos_iff.2 hne
    rw [start, Ram.vecSet_ok (by omega), ok_bind]
    dsimp only
    by_cases hsub : (proof.hashes.set (proof.hashes.length - 1) Fuzz.zeroHash).Sublist (nodes.map fun a => node (hashesOf n) a.1 a.2)
    · refine .inr (.inl ?_)
      have he := hsub.eq_of_length (by rw [List.length_set, a5])
      have hg : (nodes.map fun a => node (hashesOf n) a.1 a.2)[proof.hashes.length - 1]? = some Fuzz.zeroHash := by
        rw [← he, List.getElem?_set_self (by omega)]
      rw [List.getElem?_map, Option.map_eq_some_iff] at hg
      obtain ⟨a, ha, e⟩ := hg
      have hin := ProofNode.inn ((a4.2 a.1 a.2).1 (List.mem_of_getElem? ha))
      exact Fuzz.zero_of hashesOf_zero (inForest_iff.2 hin) e
    · rcases reject k2.held.sync k2.rep (D := [t]) (by simp) (by simp) a4 hsub [setHash t] with ⟨p', e⟩ | ⟨r, i, h1, h2⟩ | ⟨p', e, h1⟩
      · left
        rw [e, ok_bind]
        rfl
      · exact .inr (.inl (Fuzz.zero_of hashesOf_zero h1 h2))
      · exact .inr (.inr ⟨F, p, proof, p', k1, a1, e, shaFound_of h1⟩)

/-- The hash with all bits set. -/
def Suite.ones : Hash32 := ⟨List.replicate 32 0xff, rfl⟩

/-- What happens when the hashes of the test have special properties: a node above the leaves is zero or has all bits set. -/
def Suite.Special (n : ℕ) : Prop := ZeroFound (hashesOf n) ∨ ∃ r i, InForest n (r + 1) i ∧ node (hashesOf n) (r + 1) i = ones

theorem Suite.ones_above {n r i : ℕ} (hi : InForest n r i) (h : node (hashesOf n) r i = ones) : Special n := by
  cases r with
  | zero =>
    exfalso
    have hi' : i < n := by simpa [inForest_iff] using hi
    have e : node (hashesOf n) 0 i = setHash i := by
      show leafFn HashOps.zero (hashesOf n) i = setHash i
      unfold leafFn
      rw [List.getD_eq_getElem?_getD, hashesOf_get hi']; rfl
    rw [e] at h
    have := congrArg (fun x : Hash32 => x.val[5]?) h
    have e1 : (Bench.setHash i).val[5]? = some 0 := rfl
    have e2 : ones.val[5]? = some 0xff := rfl
    rw [e1, e2] at this
    exact absurd this (by decide)
  | succ r => exact .inr ⟨r, i, hi, h⟩

/-- One half of the test. -/
theorem Suite.half {n : ℕ} (hn : n < 2 ^ 31) {F : RamForest Hash32} {st : List (UndoBatch Hash32 × RamForest Hash32)} {p : Pollard Hash32}
    (rem0 : List ℕ) {rem D : List ℕ} (hh : Held F st p fun x => ∃ i ∈ rem, x = setHash i) (hr : Ram.Run F st)
    (hL : Ram.Represents F (hashesOf n)) (hD : D.Pairwise (· < ·)) (h0 : D ≠ []) (hb : ∀ t ∈ D, t < n)
    (hnd : (rem ++ D).Nodup) (hbr : ∀ t ∈ rem, t < n) {c : ℕ} (hc : c = rem.length + D.length) :
    Special n ∨ (∃ p1, verify p (BatchProof.mk' D [ones]) (D.map setHash) = .ok (true, p1) ∧ ShaFound p1 (hashesOf n)) ∨
      ∃ p', invalidThenValid F (leavesOf n rem0) D c p = .ok ([true, true, true, true], p') ∧
        Held F st p' fun x => ∃ i ∈ rem ++ D, x = setHash i := by
  obtain ⟨proof, nodes, a1, a2, a3, a4, a5⟩ := proof_nodes hn hr hL hD hb
  by_cases hsub : [ones].Sublist (nodes.map fun a => node (hashesOf n) a.1 a.2)
  · left
    obtain ⟨a, ha, e⟩ := List.mem_map.1 (List.singleton_sublist.1 hsub)
    have hin := ProofNode.inn ((a4.2 a.1 a.2).1 ha)
    rw [hashesOf_length] at hin
    exact ones_above (inForest_iff.2 hin) e
  rcases reject hh.sync hL hD h0 a4 hsub (D.map setHash) with ⟨p1, e⟩ | ⟨r, i, h1, h2⟩ | ⟨p1, e, h1⟩
  · right; right
    obtain ⟨Q', g1, g2, g3⟩ := C42_refused F st p p1 _ hh _ hL _ _ e
    obtain ⟨p2, c1, c2, c3⟩ := C24_complete F _ p1 g1.sync _ hL _ proof a1 (D.map setHash) (by rw [a2]; exact at_hashes hb)
    have hH := Held.verify g1 hL c1 c2
    have hQ : (fun x => Q' x ∨ x ∈ D.map setHash) = fun x => ∃ i ∈ rem ++ D, x = setHash i := by
      funext x
      apply propext
      constructor
      · rintro (h | h)
        · by_cases hx : ∃ i ∈ rem, x = setHash i
          · obtain ⟨i, hi, e⟩ := hx
            exact ⟨i, List.mem_append_left _ hi, e⟩
          · obtain ⟨-, i, t, h3, h4, -⟩ := g3 x h hx
            rw [mk'_sorted hD] at h3
            have htD := List.mem_of_getElem? h3
            rw [hashesOf_get (hb t htD)] at h4
            exact ⟨t, List.mem_append_right _ htD, (Option.some.inj h4).symm⟩
        · obtain ⟨i, hi, rfl⟩ := List.mem_map.1 h
          exact ⟨i, List.mem_append_right _ hi, rfl⟩
      · rintro ⟨i, hi, rfl⟩
        rcases List.mem_append.1 hi with hi | hi
        · exact .inl (g2 _ ⟨i, hi, rfl⟩)
        · exact .inr (List.mem_map_of_mem hi)
    rw [hQ] at hH
    have hcount : numCachedLeaves p2 = c := by
      rw [C42_held F st p2 _ hH ((rem ++ D).map setHash) ?_ ?_, List.length_map, List.length_append, hc]
      · refine hnd.map_on (fun i hi j hj e => ?_)
        have key : ∀ i ∈ rem ++ D, i < n := by
          intro i hi
          rcases List.mem_append.1 hi with hi | hi
          · exact hbr i hi
          · exact hb i hi
        have := key i hi
        have := key j hj
        exact setHash_inj (by omega) (by omega) e
      · intro x
        rw [List.mem_map]
        exact ⟨fun ⟨i, h1, h2⟩ => ⟨i, h1, h2.symm⟩, fun ⟨i, h1, h2⟩ => ⟨i, h1, h2.symm⟩⟩
    refine ⟨p2, ?_, hH⟩
    unfold invalidThenValid
    rw [hashesAt_ok _ _ hb, ok_bind, a1, ok_bind]
    simp only [Bench.proofOf, Option.getD_some]
    rw [a2]
    rw [show (BatchProof.mk' D [⟨List.replicate 32 0xff, rfl⟩] : BatchProof Hash32) = BatchProof.mk' D [ones] from rfl, e, ok_bind]
    dsimp only
    rw [c1, ok_bind]
    dsimp only
    rw [hcount]
    simp [pure, Except.pure]
  · rw [hashesOf_length] at h1
    exact .inl (.inl (Fuzz.zero_of hashesOf_zero (by rw [hashesOf_length]; exact h1) h2))
  · exact .inr (.inl ⟨p1, e, shaFound_of h1⟩)

/-- C79: the test `hash_to_known_invalid_proof` passes for every number of leaves, remembered leaves and two sets of leaves to prove: a
proof with a junk hash is rejected and does no harm to the valid proof that follows. The exceptions are nodes that are zero or have all
bits set, and collisions of SHA-512/256 that one can read off the pollard that accepted the junk. -/
theorem C79_known (n : ℕ) (hn : n < 2 ^ 31) (rem D D' : List ℕ) (hbr : ∀ t ∈ rem, t < n) (hD : D.Pairwise (· < ·)) (h0 : D ≠ [])
    (hb : ∀ t ∈ D, t < n) (hD' : D'.Pairwise (· < ·)) (h0' : D' ≠ []) (hb' : ∀ t ∈ D', t < n) (hnd : (rem ++ D ++ D').Nodup) :
    hashToKnown n rem D D' = .ok (List.replicate 9 true) ∨ Special n ∨
      ∃ F p, setup n rem = .ok (leavesOf n rem, true, true, F, p) ∧
        ((∃ p1, verify p (BatchProof.mk' D [ones]) (D.map setHash) = .ok (true, p1) ∧ ShaFound p1 (hashesOf n)) ∨
        ∃ cs p1 p2, invalidThenValid F (leavesOf n rem) D (rem.length + D.length) p = .ok (cs, p1) ∧
          verify p1 (BatchProof.mk' D' [ones]) (D'.map setHash) = .ok (true, p2) ∧ ShaFound p2 (hashesOf n)) := by
  obtain ⟨u, F, p, k1, k2⟩ := setup_ok hn hbr
  have hnd1 : (rem ++ D).Nodup := hnd.of_append_left
  rcases half hn rem k2.held k2.run k2.rep hD h0 hb hnd1 hbr rfl with h | h | ⟨p1, a1, a2⟩
  · exact .inr (.inl h)
  · exact .inr (.inr ⟨F, p, k1, .inl h⟩)
  have hbr' : ∀ t ∈ rem ++ D, t < n := by
    intro i hi
    rcases List.mem_append.1 hi with hi | hi
    · exact hbr i hi
    · exact hb i hi
  rcases half hn rem a2 k2.run k2.rep hD' h0' hb' hnd hbr' (by rw [List.length_append]) with h | ⟨p2, h1, h2⟩ | ⟨p2, b1, -⟩
  · exact .inr (.inl h)
  · exact .inr (.inr ⟨F, p, k1, .inr ⟨_, p1, p2, a1, h1, h2⟩⟩)
  left
  have hcount : numCachedLeaves p = rem.length := by
    rw [C42_held F _ p _ k2.held (rem.map setHash) ?_ ?_, List.length_map]
    · refine hnd1.of_append_left.map_on (fun i hi j hj e => ?_)
      have := hbr i hi
      have := hbr j hj
      exact setHash_inj (by omega) (by omega) e
    · intro x
      rw [List.mem_map]
      exact ⟨fun ⟨i, h1, h2⟩ => ⟨i, h1, h2.symm⟩, fun ⟨i, h1, h2⟩ => ⟨i, h1, h2.symm⟩⟩
  unfold hashToKnown
  rw [k1, ok_bind]
  dsimp only
  rw [a1, ok_bind]
  dsimp only
  rw [b1, ok_bind, hcount]
  simp [pure, Except.pure, List.replicate]

end Sha

/-! ## Concrete cases: the values in the repository meet the hypotheses -/

section Examples
open Suite

section
variable [HashOps Hash32]

example : simpleBatchProof 15 [0, 7, 8, 14] = .ok [true] := C79_batch_proof 15 (by decide) _ (by decide) (by decide)

example : pollardRestore 15 [4, 5, 6, 7] = .ok [true, true, true] := C79_restore 15 (by decide) _ (by decide) (by decide)

example : singularLeafProve 8 = .ok (List.replicate 8 true) := C79_each 8 (by decide)

example : batchproofSerialization false 32 [0, 1] = .ok [true, true, true] :=
  C79_serialization false 32 (by decide) _ (by decide) (by decide) (by decide)

example : ∃ r, simple false 64 [0, 2, 3, 9] = .ok (List.replicate 12 true, r) :=
  ⟨_, C79_simple false 64 (by decide) _ (by decide) (by decide) (by decide)⟩

example : ramforestUndo 8 8 [5, 6, 7] [2, 4] = .ok (List.replicate 17 true) :=
  C79_undo 8 8 (by decide) _ _ (by decide) (by decide) (by decide) (by decide) (by decide) (by decide) (by decide)

/-- The hypotheses of `C79_delete`. -/
example : [0, 7, 8, 14].Pairwise (· < ·) ∧ (∀ t ∈ [0, 7, 8, 14], t < 15) ∧ [7, 8, 14, 0].Perm [0, 7, 8, 14] ∧ [7, 8, 14, 0] ≠ [0, 7, 8, 14] := by
  decide

/-- The hypotheses of `C79_known`. -/
example : [4, 5, 6, 7].Pairwise (· < ·) ∧ (∀ t ∈ [4, 5, 6, 7], t < 15) ∧ ([0] ++ [4, 5, 6, 7] ++ [1]).Nodup := by decide

/-- Both cases of `C79_modified`. -/
example : InForest 8 1 (0 / 2) ∧ ¬ InForest 15 1 (14 / 2) := by unfold InForest; decide

end

attribute [local instance] toyOps32

/-- The hypotheses of `C79_cached` are met: the three hashes of the proof differ from each other and from zero. -/
example : (do
    let (_, _, _, F, _) ← setup 8 [0]
    let r ← Acc.prove Ram.vt F [setHash 0]
    return r.map fun proof : BatchProof Hash32 => (proof.hashes.length, decide proof.hashes.Nodup, decide (HashOps.zero ∈ proof.hashes))) =
    .ok (some (3, true, false)) := by decide +kernel

/-- In the test `simple_batchproof_verify_and_delete` the roots change. -/
example : verifyAndDelete 15 [7, 8, 14, 0] [0, 7, 8, 14] = .ok (List.replicate 10 true) := by decide +kernel

end Examples

end Utreexo
