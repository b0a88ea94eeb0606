import Verif.Props.Checks
import Verif.Proof.PolFire

/-!
# Which verifications abort in a `UTREEXO_VERIFY` build

C51 is false for `Verify` (`C51_false`). Here: exactly when the check fires.
-/

set_option linter.unusedSectionVars false

namespace Utreexo
open Spec Equiv

variable {H : Type} [DecidableEq H] [HashOps H]

namespace Pol

/-- Whether the node of the pollard at `pos` holds the mark `m_remember`, which says that the sibling of the leaf is remembered
(`m_nieces[0] == m_remember`, include/pollard.h:19 and src/pollard.cpp:592-594). False if there is no node. -/
def holdsMark (p : Pollard H) (pos : ℕ) : Res Bool := do
  let (node, _, _) ← readSiblings p pos
  match node with
  | none => return false
  | some q => return (← vecGet p.ext q).n0 == some remember

/-- The leaf `h` at `x` is stored in the pollard though the pollard has no reason to: `h` is not in its position map, the node has
no remember mark, and the leaf has a sibling. -/
structure Exposed (p : Pollard H) (x : ℕ) (h : H) : Prop where
  bound : x < p.numLeaves
  pair : x / 2 < p.numLeaves / 2
  stored : read p x = .ok (some h)
  unmarked : holdsMark p x = .ok false
  unknown : PosMap.find p.posmap h = none

/-- `holdsMark` reads the mark. -/
theorem holdsMark_ok {p : Pollard H} {L : List H} {A : Addr} (h : Inv p L.length (leafFn HashOps.zero L) A) (hn : L.length ≤ 2 ^ 62)
    {x : ℕ} (hx : x < L.length) :
    ∃ b, holdsMark p x = .ok b ∧ (b = true ↔ ∃ q, A 0 x = some q ∧ (nz p.ext (some q) 0).isSome) := by
  obtain ⟨t, path, -, -, e, -⟩ := readSiblings_ok h.ph.num hn (r := 0) (i := x) (h.ph.shape.kidsFrom 0)
    (fun q y p' hp => (h.ph.shape.bnd _ _ _ hp).2) h.ph.roots (by simpa using hx)
  rw [posOf_zero] at e
  unfold holdsMark
  rw [e]
  simp only [ok_bind]
  cases hA : A 0 x with
  | none => exact ⟨false, rfl, by simp⟩
  | some q =>
    obtain ⟨z, hz⟩ := h.ph.shape.get hA
    simp only []
    rw [vecGet_ok hz, ok_bind]
    refine ⟨_, rfl, ?_⟩
    have h3 := (h.ph.shape.leaf x).2
    rw [hA, nz_some hz] at h3
    have hz0 : z.n0 = none ∨ z.n0 = some remember := h3
    simp only [Option.some.injEq, exists_eq_left', nz_some hz]
    show _ ↔ z.n0.isSome = true
    rcases hz0 with h | h <;> simp [h]

/-- What the check finds wrong, in terms of the pollard. -/
theorem bad_iff {p : Pollard H} {L : List H} {A : Addr} (h : Inv p L.length (leafFn HashOps.zero L) A) (hn : L.length ≤ 2 ^ 62)
    (D : List ℕ) (x : ℕ) :
    Bad p.ext p.posmap L.length A (leafFn HashOps.zero L) D x ↔
      Exposed p x (leafFn HashOps.zero L x) ∧ ¬ (x ^^^ 1 ∈ D ∧ x ^^^ 1 < x) := by
  have hnum := h.ph.num
  constructor
  · rintro ⟨⟨q, h1, h2⟩, h3, h4, h5⟩
    have hx : x < L.length := by
      by_contra hc
      rw [h.out 0 x (by simpa using hc)] at h1
      cases h1
    refine ⟨⟨by rw [hnum]; exact hx, ?_, ?_, ?_, h4⟩, h5⟩
    · by_contra hc
      rw [hnum] at hc
      have := (rtOf_iff (n := L.length) (r := 0) (i := x) (by simpa using hx)).2 (by simpa using hc)
      rw [h3] at this; cases this
    · have := h.read_at hn (r := 0) (i := x) (by simpa using hx)
      rw [h1] at this
      unfold at' at this
      rw [posOf_zero] at this
      exact this
    · obtain ⟨b, e, hb⟩ := holdsMark_ok h hn hx
      rw [e]
      cases b with
      | false => rfl
      | true =>
        obtain ⟨q', g1, g2⟩ := hb.1 rfl
        rw [h1] at g1
        obtain rfl := Option.some.inj g1
        rw [h2] at g2; cases g2
  · rintro ⟨hE, h5⟩
    have hx : x < L.length := by rw [← hnum]; exact hE.bound
    have hr := h.read_at hn (r := 0) (i := x) (by simpa using hx)
    unfold at' at hr
    rw [posOf_zero, hE.stored] at hr
    cases hA : A 0 x with
    | none => rw [hA] at hr; cases hr
    | some q =>
      refine ⟨⟨q, hA, ?_⟩, ?_, hE.unknown, h5⟩
      · obtain ⟨b, e, hb⟩ := holdsMark_ok h hn hx
        rw [hE.unmarked] at e
        obtain rfl := Except.ok.inj e
        cases hz : nz p.ext (some q) 0 with
        | none => rfl
        | some w =>
          have := hb.2 ⟨q, hA, by rw [hz]; rfl⟩
          cases this
      · have := hE.pair
        rw [hnum] at this
        exact rtOf_false (by simpa using this)

end Pol

open Pol in
/-- C51: in every history a verification with checks gives what it gives without, or it aborts; and it aborts only if one of the
targets with its hash is exposed and its left neighbour in the pair is not a target too. -/
theorem C51_verify_reason_partial (F : RamForest H) (st : List (UndoBatch H × RamForest H)) (p : Pollard H) (h : Sync F st p)
    (proof : BatchProof H) (hs : List H) :
    Pol.verifyV p proof hs = Pol.verify p proof hs ∨
    (Pol.verifyV p proof hs = .error .abort ∧
      ∃ x h, (x, h) ∈ proof.sorted.zip hs ∧ Exposed p x h ∧ ¬ (x % 2 = 1 ∧ x - 1 ∈ proof.sorted)) := by
  obtain ⟨L, A, hI⟩ := h.inv
  rcases verifyV_iff hI.inv hI.len proof hs with ⟨h1, -⟩ | ⟨h1, x, h2, h3⟩
  · exact .inl h1
  · right
    obtain ⟨h4, h5⟩ := (bad_iff hI.inv hI.len _ x).1 h3
    refine ⟨h1, x, _, h2, h4, ?_⟩
    rintro ⟨g1, g2⟩
    apply h5
    have e : x ^^^ 1 = x - 1 := by rw [xor_one_cases, if_neg (by omega)]
    rw [e]
    exact ⟨g2, by omega⟩

open Pol in
/-- C51: of the proofs that a build without checks accepts, a build with checks aborts on exactly those with such a target, and
gives the same result on all others. -/
theorem C51_verify_accepted_partial (F : RamForest H) (st : List (UndoBatch H × RamForest H)) (p p' : Pollard H) (h : Sync F st p)
    (proof : BatchProof H) (hs : List H) (ha : Pol.verify p proof hs = .ok (true, p')) :
    (Pol.verifyV p proof hs = .error .abort ↔
      ∃ x h, (x, h) ∈ proof.sorted.zip hs ∧ Exposed p x h ∧ ¬ (x % 2 = 1 ∧ x - 1 ∈ proof.sorted)) ∧
    (Pol.verifyV p proof hs ≠ .error .abort → Pol.verifyV p proof hs = .ok (true, p')) := by
  refine ⟨⟨?_, ?_⟩, ?_⟩
  · intro he
    rcases C51_verify_reason_partial F st p h proof hs with h1 | ⟨-, h1⟩
    · rw [h1, ha] at he; cases he
    · exact h1
  · rintro ⟨x, hh, h1, h2, h3⟩
    obtain ⟨L, A, hI⟩ := h.inv
    rcases verifyV_iff hI.inv hI.len proof hs with ⟨-, h4⟩ | ⟨h4, -⟩
    · exfalso
      have hx : x < L.length := by rw [← hI.inv.ph.num]; exact h2.bound
      have hr := hI.inv.read_at hI.len (r := 0) (i := x) (by simpa using hx)
      unfold at' at hr
      rw [posOf_zero, h2.stored] at hr
      have hE : hh = leafFn HashOps.zero L x := by
        cases hA : A 0 x with
        | none => rw [hA] at hr; cases hr
        | some q => rw [hA] at hr; exact Option.some.inj (Except.ok.inj hr)
      subst hE
      refine h4 p' ha x h1 ((bad_iff hI.inv hI.len _ x).2 ⟨h2, ?_⟩)
      rintro ⟨g1, g2⟩
      apply h3
      rw [xor_one_cases] at g1 g2
      split at g1
      · next e => rw [if_pos e] at g2; omega
      · next e => exact ⟨by omega, g1⟩
    · exact h4
  · intro hne
    rcases C51_verify_reason_partial F st p h proof hs with h1 | ⟨h1, -⟩
    · rw [h1, ha]
    · exact absurd h1 hne

open Pol in
/-- C51: no proof whatever sets off a check exactly if no leaf is exposed; and it is enough that none of the proofs does that the
forest makes for single leaves. -/
theorem C51_verify_exact_partial (F : RamForest H) (st : List (UndoBatch H × RamForest H)) (p : Pollard H) (h : Sync F st p)
    (L : List H) (hL : Ram.Represents F L) :
    ((∀ proof hs, Pol.verifyV p proof hs = Pol.verify p proof hs) ↔ ¬ ∃ x h, Exposed p x h) ∧
    ((∀ proof hs, Pol.verifyV p proof hs = Pol.verify p proof hs) ↔
      ∀ h ∈ L, ∀ proof, Acc.prove Ram.vt F [h] = .ok (some proof) → Pol.verifyV p proof [h] ≠ .error .abort) := by
  have key : ∀ x hh, Exposed p x hh → ∃ proof, hh ∈ L ∧ Acc.prove Ram.vt F [hh] = .ok (some proof) ∧
      Pol.verifyV p proof [hh] = .error .abort ∧ ∃ p', Pol.verify p proof [hh] = .ok (true, p') := by
    intro x hh hE
    obtain ⟨L0, A, hI⟩ := h.inv
    obtain rfl := hL.unique hI.rep
    have hx : x < L.length := by rw [← hI.inv.ph.num]; exact hE.bound
    have hr := hI.inv.read_at hI.len (r := 0) (i := x) (by simpa using hx)
    unfold at' at hr
    rw [posOf_zero, hE.stored] at hr
    have e : leafFn HashOps.zero L x = hh := by
      cases hA : A 0 x with
      | none => rw [hA] at hr; cases hr
      | some q => rw [hA] at hr; exact (Option.some.inj (Except.ok.inj hr)).symm
    have hg : L[x]? = some hh := leafFn_get.2 ⟨hx, e⟩
    obtain ⟨proof, p', k1, k2, k3, -⟩ := C24_positions F st p h L hL [x] (by simp) [hh] (by simp [hg])
    refine ⟨proof, List.mem_of_getElem? hg, k1, ?_, p', k3⟩
    refine (C51_verify_accepted_partial F st p p' h proof [hh] k3).1.2 ⟨x, hh, ?_, hE, ?_⟩
    · rw [k2]; simp
    · rw [k2]
      rintro ⟨g1, g2⟩
      have := List.mem_singleton.1 g2
      omega
  have free : (¬ ∃ x h, Exposed p x h) → ∀ proof hs, Pol.verifyV p proof hs = Pol.verify p proof hs := by
    intro hno proof hs
    rcases C51_verify_reason_partial F st p h proof hs with h1 | ⟨-, x, hh, -, h2, -⟩
    · exact h1
    · exact absurd ⟨x, hh, h2⟩ hno
  refine ⟨⟨?_, free⟩, ⟨?_, ?_⟩⟩
  · rintro hall ⟨x, hh, hE⟩
    obtain ⟨proof, -, -, k1, p', k2⟩ := key x hh hE
    rw [hall, k2] at k1
    cases k1
  · intro hall hh hm proof hp he
    obtain ⟨p', k, -⟩ := C24_complete F st p h L hL [hh] proof hp [hh] (by
      obtain ⟨L0, A, hI⟩ := h.inv
      obtain ⟨r, e1, -, e3⟩ := C22_prove F st hI.run L hL [hh]
      rw [hp] at e1
      obtain ⟨g1, g2, g3, -⟩ := e3 proof (Except.ok.inj e1).symm
      have hlen : proof.targets.length = 1 := by simpa using congrArg List.length g1
      obtain ⟨t, ht⟩ := List.length_eq_one_iff.1 hlen
      rw [ht] at g1 g3
      rw [List.perm_singleton.1 g3]
      exact g1.symm)
    rw [hall, k] at he
    cases he
  · intro hall
    apply free
    rintro ⟨x, hh, hE⟩
    obtain ⟨proof, hm, k1, k2, -⟩ := key x hh hE
    exact hall hh hm proof k1 k2

open Pol in
/-- C51: in particular no check fires if every stored leaf is in the position map, except the leaf that is a root. -/
theorem C51_verify_known_partial (F : RamForest H) (st : List (UndoBatch H × RamForest H)) (p : Pollard H) (h : Sync F st p)
    (hk : ∀ x h, x / 2 < p.numLeaves / 2 → Pol.read p x = .ok (some h) → (PosMap.find p.posmap h).isSome)
    (proof : BatchProof H) (hs : List H) : Pol.verifyV p proof hs = Pol.verify p proof hs := by
  rcases C51_verify_reason_partial F st p h proof hs with h1 | ⟨-, x, hh, -, h2, -⟩
  · exact h1
  · have := hk x hh h2.pair h2.stored
    rw [h2.unknown] at this
    cases this

section Witness
attribute [local instance] toyOps

/-- The pollard of `checkRun` before the last proof, and its forest. -/
def exposedRun : Res (RamForest ℕ × Pollard ℕ) := do
  let leaves : List (Leaf ℕ) := [(11, true), (12, false), (13, false), (14, false)]
  let (_, _, F) ← Ram.modify (Ram.mk 0) leaves []
  let (_, p) ← Pol.modify (Pol.mk 0) leaves []
  let (_, p) ← Pol.verify p (BatchProof.mk' [1, 2] [14]) [12, 99]
  let some pf ← Acc.prove Ram.vt F [11] | .error .exc
  let (_, p) ← Pol.verify p pf [11]
  let (_, _, F) ← Ram.modify F [(15, false)] [0]
  let (_, p) ← Pol.modify p [(15, false)] [0]
  return (F, p)

/-- The conditions are met: the leaf `12` at position `2` of that pollard is exposed, the other stored leaf `15` is not, as its node
holds the mark of its sibling `12`. -/
theorem C51_exposed_witness : (do
    let (_, p) ← exposedRun
    let r ← (List.range p.numLeaves).mapM fun x => do
      pure (← Pol.read p x, ← Pol.holdsMark p x)
    pure (r, p.posmap.length) : Res (List (Option ℕ × Bool) × ℕ)) =
      .ok ([(none, false), (none, false), (some 12, false), (some 15, true)], 0) := by decide +kernel

/-- Proofs of `15` alone pass, those of `12` and of both abort. -/
theorem C51_abort_witness : (do
    let (F, p) ← exposedRun
    let some p1 ← Acc.prove Ram.vt F [12] | .error .exc
    let some p2 ← Acc.prove Ram.vt F [15] | .error .exc
    let some p3 ← Acc.prove Ram.vt F [12, 15] | .error .exc
    pure ((Pol.verifyV p p1 [12]).map Prod.fst, (Pol.verifyV p p2 [15]).map Prod.fst, (Pol.verifyV p p3 [12, 15]).map Prod.fst) :
        Res (Res Bool × Res Bool × Res Bool)) = .ok (.error .abort, .ok true, .error .abort) := by decide +kernel

end Witness
end Utreexo
