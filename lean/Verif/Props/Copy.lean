import Verif.Model.Copy
import Verif.Props.Print

/-!
# C62: copies of a pollard

The claim "a copy of a pollard can be used independently" is false: the copies share their nodes. What holds is proved: a copy may be
used to verify proofs, it may be given leaves that are too few to be merged with the old trees, and a pollard that has nothing but its
roots may be given any number of leaves that are not to be remembered.
-/

set_option linter.unusedSectionVars false

namespace Utreexo

open Spec Equiv

variable {H : Type} [DecidableEq H] [HashOps H]

namespace Pol

/-- `Verify` does not read the position map. -/
theorem verify_posmap (s : Pollard H) (m : PosMap H) (proof : BatchProof H) (hs : List H) (b : Bool) (s' : Pollard H)
    (h : verify s proof hs = .ok (b, s')) : ∃ m', verify { s with posmap := m } proof hs = .ok (b, { s' with posmap := m' }) := by
  unfold verify at h ⊢
  by_cases hl : hs.length ≠ proof.targets.length
  · rw [if_pos hl] at h ⊢
    injection h with h
    simp only [Prod.mk.injEq] at h
    obtain ⟨rfl, rfl⟩ := h
    exact ⟨m, rfl⟩
  rw [if_neg hl] at h ⊢
  obtain ⟨c, e1, h⟩ := bind_eq_ok.1 h
  simp only [e1, ok_bind]
  cases c with
  | false =>
    simp only [Bool.not_false, if_true] at h ⊢
    obtain ⟨rfl, rfl⟩ := Prod.mk.inj (Except.ok.inj h)
    exact ⟨m, rfl⟩
  | true =>
    simp only [Bool.not_true, Bool.false_eq_true, if_false] at h ⊢
    by_cases h0 : proof.targets.length = 0
    · rw [if_pos h0] at h ⊢
      obtain ⟨rfl, rfl⟩ := Prod.mk.inj (Except.ok.inj h)
      exact ⟨m, rfl⟩
    rw [if_neg h0] at h ⊢
    obtain ⟨⟨ok1, c, tree⟩, e2, h⟩ := bind_eq_ok.1 h
    have e2' : createProofTree { s with posmap := m } proof = .ok (ok1, c, tree) := e2
    rw [e2', ok_bind]
    simp only at h ⊢
    have key : ∀ (hs : List H) (ts : List ℕ) (m m' m1 : PosMap H), rememberTargets hs ts m = .ok m1 →
        ∃ m2, rememberTargets hs ts m' = .ok m2 := by
      intro hs
      induction hs with
      | nil => intro ts m m' m1 _; exact ⟨m', by cases ts <;> rfl⟩
      | cons x hs ih =>
        intro ts m m' m1 e
        cases ts with
        | nil => simp [rememberTargets] at e
        | cons t ts => exact ih ts _ _ m1 e
    cases ok1 with
    | false =>
      simp only [Bool.false_eq_true, if_false, pure_ok, ok_bind, Bool.not_false, if_true] at h ⊢
      obtain ⟨heap, e4, h⟩ := bind_eq_ok.1 h
      rw [e4, ok_bind]
      obtain ⟨rfl, rfl⟩ := Prod.mk.inj (Except.ok.inj h)
      exact ⟨m, rfl⟩
    | true =>
      simp only [if_true] at h ⊢
      obtain ⟨⟨ok2, t⟩, e3, h⟩ := bind_eq_ok.1 h
      rw [e3, ok_bind]
      simp only at h ⊢
      cases ok2 with
      | false =>
        simp only [Bool.not_false, if_true] at h ⊢
        obtain ⟨heap, e4, h⟩ := bind_eq_ok.1 h
        rw [e4, ok_bind]
        obtain ⟨rfl, rfl⟩ := Prod.mk.inj (Except.ok.inj h)
        exact ⟨m, rfl⟩
      | true =>
        simp only [Bool.not_true, Bool.false_eq_true, if_false] at h ⊢
        obtain ⟨m1, e4, h⟩ := bind_eq_ok.1 h
        obtain ⟨m2, e5⟩ := key _ _ _ m _ e4
        rw [e5, ok_bind]
        obtain ⟨rfl, rfl⟩ := Prod.mk.inj (Except.ok.inj h)
        exact ⟨m2, rfl⟩

theorem verify_count {s : Pollard H} {proof : BatchProof H} {hs : List H} {b : Bool} {s' : Pollard H}
    (h : verify s proof hs = .ok (b, s')) : s'.numLeaves = s.numLeaves := by
  unfold verify at h
  by_cases hl : hs.length ≠ proof.targets.length
  · rw [if_pos hl] at h
    rw [← (Prod.mk.inj (Except.ok.inj h)).2]
  rw [if_neg hl] at h
  obtain ⟨c, e1, h⟩ := bind_eq_ok.1 h
  cases c with
  | false =>
    simp only [Bool.not_false, if_true] at h
    rw [← (Prod.mk.inj (Except.ok.inj h)).2]
  | true =>
    simp only [Bool.not_true, Bool.false_eq_true, if_false] at h
    by_cases h0 : proof.targets.length = 0
    · rw [if_pos h0] at h
      rw [← (Prod.mk.inj (Except.ok.inj h)).2]
    rw [if_neg h0] at h
    obtain ⟨⟨ok1, c, tree⟩, e2, h⟩ := bind_eq_ok.1 h
    simp only at h
    cases ok1 with
    | false =>
      simp only [Bool.false_eq_true, if_false, pure_ok, ok_bind, Bool.not_false, if_true] at h
      obtain ⟨heap, e4, h⟩ := bind_eq_ok.1 h
      rw [← (Prod.mk.inj (Except.ok.inj h)).2]
    | true =>
      simp only [if_true] at h
      obtain ⟨⟨ok2, t⟩, e3, h⟩ := bind_eq_ok.1 h
      simp only at h
      cases ok2 with
      | false =>
        simp only [Bool.not_false, if_true] at h
        obtain ⟨heap, e4, h⟩ := bind_eq_ok.1 h
        rw [← (Prod.mk.inj (Except.ok.inj h)).2]
      | true =>
        simp only [Bool.not_true, Bool.false_eq_true, if_false] at h
        obtain ⟨m1, e4, h⟩ := bind_eq_ok.1 h
        rw [← (Prod.mk.inj (Except.ok.inj h)).2]

/-- Whether a proof is accepted depends on the objects only. -/
theorem accepts_of {F F' : RamForest H} {st st' : List (UndoBatch H × RamForest H)} {p q : Pollard H} {L : List H} {A : Addr}
    (hI : SyncInv F st p L A) (hJ : SyncInv F' st' q L A) {proof : BatchProof H} {hs : List H} {p' : Pollard H}
    (hv : verify p proof hs = .ok (true, p')) (hc : ¬ Collision p' L) : ∃ q', verify q proof hs = .ok (true, q') ∧ ¬ Collision q' L := by
  have hlen : hs.length = proof.targets.length := by
    by_contra hl
    unfold verify at hv
    rw [if_pos hl] at hv
    simp at hv
  by_cases ht : proof.targets = []
  · refine ⟨q, ?_, inv_no_coll hJ.inv hJ.len⟩
    unfold verify at hv ⊢
    rw [if_neg (by simpa using hlen)] at hv ⊢
    rw [hJ.inv.ph.num]
    rw [hI.inv.ph.num] at hv
    obtain ⟨c, e1, hv⟩ := bind_eq_ok.1 hv
    rw [e1, ok_bind]
    cases c with
    | false => simp at hv
    | true =>
      simp only [Bool.not_true, Bool.false_eq_true, if_false]
      rw [if_pos (by rw [ht]; rfl)]
      rfl
  rcases verify_ok hI.inv hI.len proof hs with ⟨e, -⟩ | ⟨-, h0, -⟩ | ⟨e, -⟩ | ⟨s', e, -⟩ | ⟨s', A1, e, -, ha, hr, -⟩
  · rw [e] at hv; simp at hv
  · exact absurd h0 ht
  · rw [e] at hv; simp at hv
  · rw [e] at hv; simp at hv
  · rw [e] at hv
    obtain rfl : s' = p' := by simpa using hv
    rw [← coll_iff ha.ph hI.len] at hc
    have hon : Hon L.length (leafFn HashOps.zero L) A proof hs := by
      refine ⟨(ha.sound hI.inv hc).2, ?_⟩
      rw [planRev_congr (w := mt (leafFn HashOps.zero L))] at hr
      · exact hr
      · intro r x hx
        exact ha.values hI.inv hc (St.numRows L.length + 1) r x (by omega) ((Vn_cases ha.sane).2 (.inr hx))
    rcases verify_ok hJ.inv hJ.len proof hs with ⟨-, h1 | h1 | h1⟩ | ⟨e, -⟩ | ⟨-, h1, -⟩ | ⟨s2, -, h1, -⟩ | ⟨s2, A2, e2, -, ha2, -, hv2⟩
    · exact absurd hlen h1
    · exact absurd ha.sane h1
    · exact absurd hon h1
    · exact ⟨q, e, inv_no_coll hJ.inv hJ.len⟩
    · exact absurd hon h1
    · exact absurd hon h1
    · exact ⟨s2, e2, inv_no_coll (ha2.inv (hv2 hon)) hI.len⟩

end Pol

open Pol

/-- C62, as far as it holds: a copy `q` of `p` is not disturbed by a `Verify` on `p`, whether it accepts or rejects. It keeps its leaf
count, its roots and its position map, and accepts every proof of the forest. Missing: `Modify` and `Prune` (`C62_add_partial`,
`C62_false`, `C62_add_witness`, `C62_prune`). -/
theorem C62_verify_partial (F : RamForest H) (st : List (UndoBatch H × RamForest H)) (p : Pollard H) (h : Sync F st p) (L : List H)
    (hL : Ram.Represents F L) (proof : BatchProof H) (hs : List H) (b : Bool) (p' : Pollard H) (hv : verify p proof hs = .ok (b, p'))
    (hc : b = true → ¬ Collision p' L) :
    (copyAfterVerify p p').numLeaves = p.numLeaves ∧ (copyAfterVerify p p').posmap = p.posmap ∧
    Pol.roots (copyAfterVerify p p') = Pol.roots p ∧
    ∀ (hashes : List H) (pf : BatchProof H), Acc.prove Ram.vt F hashes = .ok (some pf) →
      ∀ ts : List H, ts.map some = pf.sorted.map (fun t => L[t]?) → ∃ q', verify (copyAfterVerify p p') pf ts = .ok (true, q') := by
  have hp' : Sync F st p' := .verify h hL hv hc
  have hq : copyAfterVerify p p' = { p' with posmap := p.posmap } := by
    unfold copyAfterVerify
    rw [← verify_count hv]
  refine ⟨rfl, rfl, ?_, ?_⟩
  · obtain ⟨-, rs, a1, a2⟩ := C23_agree F st p h
    obtain ⟨-, rs', b1, b2⟩ := C23_agree F st p' hp'
    rw [a1] at b1
    obtain rfl := Except.ok.inj b1
    rw [a2, ← b2]
    rfl
  · intro hashes pf hpf ts hts
    obtain ⟨p2, k1, -⟩ := C24_complete F st p' hp' L hL hashes pf hpf ts hts
    obtain ⟨m', k2⟩ := verify_posmap p' p.posmap pf ts true p2 k1
    exact ⟨_, by rw [hq]; exact k2⟩

/-- C62, as far as it holds: a pollard can be given any leaves that are too few to complete one of its trees to a taller one, and if it
has nothing but its roots, any number of leaves without the remember flag. A copy is not disturbed: it goes on following the forest (the theorems about `Sync` apply to it), has its count, roots, position map and remembered
leaves, reads and proves the same, and accepts the same proofs. Only the positions that `PrintRoots` shows for it may change. Missing: other
additions, and deletions (`C62_add_witness`, `C62_add_flag`, `C62_false`). -/
theorem C62_add_partial (F : RamForest H) (st : List (UndoBatch H × RamForest H)) (p : Pollard H) (h : Sync F st p) (leaves : List (Leaf H))
    (hk : Apart p leaves) :
    ∃ p', modify p leaves [] = .ok (true, p') ∧ p'.numLeaves = p.numLeaves + leaves.length ∧
      Sync F st (copyAfterModify leaves [] p p') ∧
      (copyAfterModify leaves [] p p').numLeaves = p.numLeaves ∧ (copyAfterModify leaves [] p p').posmap = p.posmap ∧
      Pol.roots (copyAfterModify leaves [] p p') = Pol.roots p ∧
      numCachedLeaves (copyAfterModify leaves [] p p') = numCachedLeaves p ∧ countNodes (copyAfterModify leaves [] p p') = countNodes p ∧
      (∀ pos, read (copyAfterModify leaves [] p p') pos = read p pos) ∧
      (∀ hashes, Acc.prove Pol.vt (copyAfterModify leaves [] p p') hashes = Acc.prove Pol.vt p hashes) ∧
      ∀ (L : List H) (proof : BatchProof H) (hs : List H), Ram.Represents F L →
        ((∃ q, verify (copyAfterModify leaves [] p p') proof hs = .ok (true, q) ∧ ¬ Collision q L) ↔
          ∃ q, verify p proof hs = .ok (true, q) ∧ ¬ Collision q L) := by
  obtain ⟨L, A, hI⟩ := h.inv
  have t3 := hk.bound
  rw [hI.inv.ph.num] at t3
  obtain ⟨p', A', e1, h', -⟩ := add_ok leaves p _ _ A hI.inv t3
  have hm : modify p leaves [] = .ok (true, p') := by
    show (Acc.add vt p leaves >>= fun s2 => (pure (true, s2) : Res (Bool × Pollard H))) = _
    rw [e1, ok_bind]; rfl
  obtain ⟨hJ, hnz⟩ := hI.copied hk hm
  have hs := hI.same hk hm
  have hread : ∀ pos, read (copyAfterModify leaves [] p p') pos = read p pos :=
    read_same hI.inv rfl (copyRoots_nodes p.numLeaves leaves [] p.roots).1 hs
  refine ⟨p', hm, by rw [h'.ph.num, hI.inv.ph.num], h.copied hk hm, rfl, rfl, ?_, ?_, ?_, hread, ?_, ?_⟩
  · rw [hJ.inv.roots_ok, hI.inv.roots_ok]
  · rw [hJ.inv.ph.numCached_ok hJ.len, hI.inv.ph.numCached_ok hI.len]
    congr 1
    funext x
    simp only [kidc, hnz]
  · rw [hJ.inv.ph.countNodes_ok, hI.inv.ph.countNodes_ok]
  · intro hashes
    have hrp : ∀ l, Acc.readProof Pol.vt (copyAfterModify leaves [] p p') l = Acc.readProof Pol.vt p l := by
      intro l
      induction l with
      | nil => rfl
      | cons a l ih =>
        unfold Acc.readProof
        rw [show Pol.vt.read (copyAfterModify leaves [] p p') a = Pol.vt.read p a from hread a, ih]
    unfold Acc.prove
    simp only [hrp]
    rfl
  · intro L' proof ts hL'
    obtain rfl := hL'.unique hI.rep
    constructor
    · rintro ⟨q, g1, g2⟩
      exact accepts_of hJ hI g1 g2
    · rintro ⟨q, g1, g2⟩
      exact accepts_of hI hJ g1 g2

/-- C62: what `PrintRoots` shows of the copy. -/
theorem C62_shown (F : RamForest H) (st : List (UndoBatch H × RamForest H)) (p : Pollard H) (h : Sync F st p) (leaves : List (Leaf H))
    (hk : Apart p leaves) (p' : Pollard H) (hm : modify p leaves [] = .ok (true, p')) (L : List H)
    (hL : Ram.Represents F L) (hex : H → List Char) (m : Marks) (hs : Pol.shows hex p = .ok (rootsOf hex L m)) :
    Pol.shows hex (copyAfterModify leaves [] p p') = .ok (rootsOf hex L (m.aside L.length leaves.length)) := by
  obtain ⟨h1, h2⟩ := h.agrees hL
  obtain ⟨h3, h4⟩ := (h.copied hk hm).agrees hL
  have t3 := hk.bound
  rw [Pol.shows_iff h1 h2] at hs
  rw [Pol.shows_iff h3 h4, ← h1]
  exact Pol.copy_shown t3 hs

/-- C62: while a copy exists, `Prune` fails its assertion, on every pollard. -/
theorem C62_prune (F : RamForest H) (st : List (UndoBatch H × RamForest H)) (p : Pollard H) (h : Sync F st p) (others : ℕ)
    (ho : 0 < others) : pruneAllWith others p = .error .abort := by
  obtain ⟨L, A, hI⟩ := h.inv
  obtain ⟨s', e, -⟩ := pruneAll_ok hI.inv hI.len
  unfold pruneAll at e
  obtain ⟨heap, e1, -⟩ := bind_eq_ok.1 e
  unfold pruneAllWith
  rw [e1, ok_bind]
  have : ¬ numCachedLeavesWith others ({ p with ext := heap } : Pollard H) = 0 := by unfold numCachedLeavesWith; omega
  simp only [cassert, this]
  rfl

/-! ## Concrete cases -/

section Examples

attribute [local instance] toyOps

/-- C62 is false: a leaf is deleted from a pollard (verified before, as it must be), and the roots that its copy reports change, while
the copy still counts five leaves. -/
theorem C62_false :
    toyAfter [{ adds := [(11, false, false), (12, false, false), (13, false, true), (14, false, false), (15, false, false)], dels := [] }]
      (fun F p => do
        match ← Acc.prove Ram.vt F [11] with
        | none => .error .exc
        | some pf =>
          let (a, p1) ← verify p pf [11]
          let q1 := copyAfterVerify p p1
          let (b, p2) ← modify p1 [] [0]
          let q2 := copyAfterModify [] [0] q1 p2
          return (a, b, ← Pol.roots q1, ← Pol.roots q2, q2.numLeaves)) =
    .ok (true, true, [11252411, 15], [15252411, 11], 5) := by decide +kernel

/-- C62 is false for additions too: after one leaf is added to a pollard its copy keeps its roots, but has other hashes at
positions 0 and 1 and rejects the proof of a leaf that it accepted before. -/
theorem C62_add_witness :
    toyAfter [{ adds := [(11, false, true), (12, false, true), (13, false, true)], dels := [] }]
      (fun F p => do
        match ← Acc.prove Ram.vt F [11] with
        | none => .error .exc
        | some pf =>
          let (_, p2) ← modify p [(14, false)] []
          let q2 := copyAfterModify [(14, false)] [] p p2
          return ([(← verify p pf [11]).1, (← verify q2 pf [11]).1], [← read p 0, ← read p 1], [← read q2 0, ← read q2 1],
            decide (Pol.roots q2 = Pol.roots p))) =
    .ok ([true, false], [some 11, some 12], [some 13, some 14], true) := by decide +kernel

/-- C62 is false for a pollard that has nothing but its roots if the new leaf is to be remembered: the copy then reports a remembered
leaf too, which it cannot prove. -/
theorem C62_add_flag :
    toyAfter [{ adds := [(11, false, false)], dels := [] }]
      (fun _ p => do
        let (_, p2) ← modify p [(12, true)] []
        let q2 := copyAfterModify [(12, true)] [] p p2
        return ([numCachedLeaves p, countNodes p, p.roots.length], numCachedLeaves q2, ← Acc.prove Pol.vt q2 [11], ← Acc.prove Pol.vt q2 [12])) =
    .ok ([0, 1, 1], 1, none, none) := by decide +kernel

/-- A case of `C62_add_partial` in which trees are merged: a pollard with seven leaves that has nothing but its three roots is given two
more leaves, and the copy still accepts the proofs of the forest. -/
example :
    toyAfter [{ adds := [(11, false, false), (12, false, false), (13, false, false), (14, false, false), (15, false, false),
      (16, false, false), (17, false, false)], dels := [] }]
      (fun F p => do
        match ← Acc.prove Ram.vt F [11, 16] with
        | none => .error .exc
        | some pf =>
          let (_, p2) ← modify p [(18, false), (19, false)] []
          let q2 := copyAfterModify [(18, false), (19, false)] [] p p2
          return ([numCachedLeaves p, countNodes p, p.roots.length, p2.roots.length], (← verify q2 pf [11, 16]).1,
            decide (Pol.roots q2 = Pol.roots p), decide (Pol.roots q2 = Ram.roots F))) =
    .ok ([0, 3, 3, 2], true, true, true) := by decide +kernel

/-- A case of `C62_add_partial`: three leaves are given to a pollard with four leaves, and the copy still accepts the proof and reads the
leaves, while its only root is shown at another position. -/
example : TooFew 4 3 ∧
    toyAfter [{ adds := [(11, false, true), (12, false, true), (13, false, true), (14, false, false)], dels := [] }]
      (fun F p => do
        match ← Acc.prove Ram.vt F [11] with
        | none => .error .exc
        | some pf =>
          let (_, p2) ← modify p [(15, false), (16, true), (17, true)] []
          let q2 := copyAfterModify [(15, false), (16, true), (17, true)] [] p p2
          return ((← verify q2 pf [11]).1, [← read q2 0, ← read q2 2], [p.roots.map fun r => r.e.pos, q2.roots.map fun r => r.e.pos],
            [p.ext.length, q2.ext.length])) =
    .ok (true, [some 11, some 13], [[6], [12]], [8, 12]) := by
  refine ⟨⟨2, by decide, by decide, by decide⟩, ?_⟩
  decide +kernel

/-- A case of `C62_verify_partial`: the copy accepts the proof after the original verified another one. -/
example : toyAfter [{ adds := [(11, false, false), (12, false, false), (13, false, true), (14, false, false), (15, false, false)], dels := [] }]
      (fun F p => do
        match ← Acc.prove Ram.vt F [11], ← Acc.prove Ram.vt F [14] with
        | some pf, some pg =>
          let (_, p1) ← verify p pf [11]
          return ((← verify (copyAfterVerify p p1) pg [14]).1, (copyAfterVerify p p1).posmap.length, p1.posmap.length)
        | _, _ => .error .exc) = .ok (true, 1, 2) := by decide +kernel

end Examples

end Utreexo
