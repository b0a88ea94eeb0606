import Verif.Proof.PolCheck

/-! # `Pollard::Verify` -/

set_option linter.unusedSectionVars false

namespace Utreexo
open Spec Equiv

variable {H : Type} [DecidableEq H] [HashOps H]

namespace Pol

/-! ## Undoing a failed verification -/

theorem cut_covers {c : Chop} {x : INode H} {b : ℕ} (hb : b < 2) (h : covers c b) : INode.niece (cutNieces c x) b = none := by
  have : b = 0 ∨ b = 1 := by omega
  rcases this with rfl | rfl <;> cases c <;> simp_all [covers, cutNieces, INode.niece]

theorem cut_keep {c : Chop} {x : INode H} {b : ℕ} (hb : b < 2) (h : ¬ covers c b) :
    INode.niece (cutNieces c x) b = INode.niece x b := by
  have : b = 0 ∨ b = 1 := by omega
  rcases this with rfl | rfl <;> cases c <;> simp_all [covers, cutNieces, INode.niece]

theorem cut_hash (c : Chop) (x : INode H) : (cutNieces c x).hash = x.hash := by cases c <;> rfl

/-- An entry cuts niece `b` of the object at `p`. -/
def Cuts (rt : ℕ → ℕ → Bool) (A : Addr) (cs : List (ℕ × ℕ)) (p b : ℕ) (e : ℕ × Chop) : Prop :=
  ∃ c, cs[e.1]? = some c ∧ holder rt A c.1 c.2 = some p ∧ covers e.2 b

theorem recover_ok {arena : List VNode} {cs : List (ℕ × ℕ)} {rt : ℕ → ℕ → Bool} {A : Addr}
    (ha : ∀ (i : ℕ) (e : ℕ × ℕ), cs[i]? = some e → ∃ v : VNode, arena[i]? = some v ∧ v.sib = holder rt A e.1 e.2) :
    ∀ (es : List (ℕ × Chop)) (heap : List (INode H)),
      (∀ e ∈ es, ∃ c p, cs[e.1]? = some c ∧ holder rt A c.1 c.2 = some p ∧ p < heap.length) →
      ∃ heap', recover arena es heap = .ok heap' ∧ heap'.length = heap.length ∧ (∀ q, hz heap' q = hz heap q) ∧
        ∀ p b, b < 2 → ((∃ e ∈ es, Cuts rt A cs p b e) → nz heap' (some p) b = none) ∧
          ((¬ ∃ e ∈ es, Cuts rt A cs p b e) → nz heap' (some p) b = nz heap (some p) b) := by
  intro es
  induction es with
  | nil => intro heap _; exact ⟨heap, rfl, rfl, fun _ => rfl, fun p b _ => ⟨by simp, fun _ => rfl⟩⟩
  | cons e es ih =>
    obtain ⟨id, ch⟩ := e
    intro heap h
    obtain ⟨c, p, h1, h2, h3⟩ := h (id, ch) (by simp)
    obtain ⟨v, a1, a2⟩ := ha id c h1
    rw [h2] at a2
    obtain ⟨x, hx⟩ : ∃ x, heap[p]? = some x := ⟨heap[p], List.getElem?_eq_getElem h3⟩
    obtain ⟨heap', e1, e2, e3, e4⟩ := ih (heap.set p (cutNieces ch x)) (by
      intro e he
      obtain ⟨c, p, g1, g2, g3⟩ := h e (by simp [he])
      exact ⟨c, p, g1, g2, by simpa using g3⟩)
    refine ⟨heap', ?_, by simpa using e2, ?_, ?_⟩
    · rw [recover, vecGet_ok a1, ok_bind, a2]
      simp only [Option.isSome_some, cassert_true, ok_bind]
      rw [deref_ok hx, ok_bind, store_ok h3, ok_bind]
      exact e1
    · intro q
      rw [e3, hz_set h3]
      split
      · next e => subst e; unfold hz; rw [hx, cut_hash]; rfl
      · rfl
    · intro q b hb
      obtain ⟨f1, f2⟩ := e4 q b hb
      constructor
      · rintro ⟨e, he, hc⟩
        by_cases hr : ∃ e ∈ es, Cuts rt A cs q b e
        · exact f1 hr
        · rcases List.mem_cons.1 he with rfl | he
          · obtain ⟨c', g1, g2, g3⟩ := hc
            rw [h1] at g1
            obtain rfl := Option.some.inj g1
            rw [h2] at g2
            obtain rfl := Option.some.inj g2
            rw [f2 hr, nz_set h3, if_pos rfl, cut_covers hb g3]
          · exact absurd ⟨e, he, hc⟩ hr
      · intro hr
        rw [f2 (fun ⟨e, he, hc⟩ => hr ⟨e, by simp [he], hc⟩), nz_set h3]
        split
        · next e =>
          subst e
          rw [cut_keep hb, nz_some hx]
          intro hc
          exact hr ⟨(id, ch), by simp, c, h1, h2, hc⟩
        · rfl

/-- The recovery removes every object that was not cached before. -/
theorem restore_ok {K : Ctx H} (hK : K.Ok) {cs : List (ℕ × ℕ)} {A1 : Addr} {rec : List (ℕ × Chop)} {arena : List VNode}
    {heap : List (INode H)}
    (ha : ∀ (i : ℕ) (e : ℕ × ℕ), cs[i]? = some e → ∃ v : VNode, arena[i]? = some v ∧ v.sib = holder (rtOf K.n) A1 e.1 e.2)
    (shape : Shape heap (rtOf K.n) A1) (ext : ∀ r x p, K.A0 r x = some p → A1 r x = some p)
    (old : ∀ r x p, K.A0 r x = some p → hz heap p = some (K.c r x))
    (hold : ∀ r x, (r, x) ∈ cs → ∃ p, holder (rtOf K.n) A1 r x = some p)
    (rc : ∀ r x, (K.A0 r x = none ∧ (A1 r x).isSome = true) ↔ ∃ e ∈ rec, cs[e.1]? = some (r + 1, x / 2) ∧ covers e.2 (x % 2))
    (recs : ∀ e ∈ rec, ∃ r x, cs[e.1]? = some (r + 1, x)) :
    ∃ heap', recover arena rec heap = .ok heap' ∧ heap'.length = heap.length ∧ Shape heap' (rtOf K.n) K.A0 ∧ Hashed heap' K.A0 K.c ∧
      ∀ x p, K.A0 0 x = some p → nz heap' (some p) 0 = nz heap (some p) 0 := by
  obtain ⟨heap', e1, e2, e3, e4⟩ := recover_ok ha rec heap (by
    intro e he
    obtain ⟨r, x, h⟩ := recs e he
    obtain ⟨p, hp⟩ := hold _ _ (List.mem_of_getElem? h)
    obtain ⟨z, hz⟩ := shape.hget hp
    exact ⟨_, p, h, hp, lt_of_get hz⟩)
  -- a niece of the holder of a row
  have cutIff : ∀ r y p, holder (rtOf K.n) A1 (r + 1) (y / 2) = some p →
      ((∃ e ∈ rec, Cuts (rtOf K.n) A1 cs p (y % 2) e) ↔ (K.A0 r y = none ∧ (A1 r y).isSome = true)) := by
    intro r y p hp
    rw [rc]
    constructor
    · rintro ⟨e, he, ⟨r', x'⟩, h1, h2, h3⟩
      obtain ⟨rfl, rfl⟩ := shape.holder_inj h2 hp
      exact ⟨e, he, h1, h3⟩
    · rintro ⟨e, he, h1, h2⟩
      exact ⟨e, he, _, h1, hp, h2⟩
  have hold01 : ∀ r x p, holder (rtOf K.n) K.A0 r x = some p → holder (rtOf K.n) A1 r x = some p := by
    intro r x p h
    rcases holder_some h with ⟨h1, h2⟩ | ⟨h1, h2, h3⟩
    · rw [holder_root h1]; exact ext _ _ _ h2
    · rw [holder_sib h1 h2]; exact ext _ _ _ h3
  have nc : ∀ i p b, K.A0 0 i = some p → ¬ ∃ e ∈ rec, Cuts (rtOf K.n) A1 cs p b e := by
    rintro i p b h0 ⟨e, he, c, h1, h2, -⟩
    obtain ⟨r, x, h⟩ := recs e he
    rw [h1] at h
    obtain rfl := Option.some.inj h
    obtain ⟨j, hj⟩ := holder_addr h2
    have := (shape.inj _ _ _ _ _ hj (ext _ _ _ h0)).1
    simp at this
  refine ⟨heap', e1, e2, ⟨?_, hK.shape.inj, ?_, ?_, hK.shape.root, ?rank⟩, ?_, fun x p h0 => (e4 p 0 (by omega)).2 (nc x p 0 h0)⟩
  case rank =>
    refine shape.rank.mono (by omega) ext fun p b hb => ?_
    by_cases hc : ∃ e ∈ rec, Cuts (rtOf K.n) A1 cs p b e
    · exact .inl ((e4 p b hb).1 hc)
    · exact .inr ((e4 p b hb).2 hc)
  · intro r y hy
    cases hh : holder (rtOf K.n) K.A0 (r + 1) (y / 2) with
    | none =>
      have := hK.shape.kids r y hy
      rw [hh] at this; exact this
    | some p =>
      have hp := hold01 _ _ _ hh
      obtain ⟨f1, f2⟩ := e4 p (y % 2) (by omega)
      have k1 := shape.kids r y hy
      rw [hp] at k1
      cases h0 : K.A0 r y with
      | some q =>
        rw [f2 (by rw [cutIff _ _ _ hp, h0]; simp), ← k1, ext _ _ _ h0]
      | none =>
        cases h1 : A1 r y with
        | none => rw [f2 (by rw [cutIff _ _ _ hp, h1]; simp), ← k1, h1]
        | some q => rw [f1 ((cutIff _ _ _ hp).2 ⟨h0, by rw [h1]; rfl⟩)]
  · intro r i p hp
    have := shape.bnd _ _ _ (ext _ _ _ hp)
    rw [e2]; exact this
  · intro i
    cases h0 : K.A0 0 i with
    | none => simp [nz]
    | some p =>
      have hp := ext _ _ _ h0
      have hl := shape.leaf i
      rw [hp] at hl
      rw [(e4 p 1 (by omega)).2 (nc i p 1 h0), (e4 p 0 (by omega)).2 (nc i p 0 h0)]
      exact hl
  · intro r i p hp
    have h1 := e3 p
    rw [old _ _ _ hp] at h1
    exact h1

/-! ## The call -/

/-- The hash stored for a node, the null hash if there is none. -/
def cv (heap : List (INode H)) (A : Addr) (r x : ℕ) : H := (val heap A r x).getD HashOps.zero

theorem val_cv {heap : List (INode H)} {rt : ℕ → ℕ → Bool} {A : Addr} (s : Shape heap rt A) {r x p : ℕ} (h : A r x = some p) :
    val heap A r x = some (cv heap A r x) := by
  obtain ⟨z, hg⟩ := s.get h
  have : val heap A r x = some z.hash := by rw [val_some h]; unfold hz; rw [hg]; rfl
  unfold cv; rw [this]; rfl

theorem cv_of {heap : List (INode H)} {A : Addr} {r x : ℕ} {h : H} (e : val heap A r x = some h) : cv heap A r x = h := by
  unfold cv; rw [e]; rfl

theorem hashed_cv {heap : List (INode H)} {rt : ℕ → ℕ → Bool} {A : Addr} (s : Shape heap rt A) : Hashed heap A (cv heap A) := by
  intro r x p h
  have := val_cv s h
  rw [val_some h] at this
  exact this

theorem rememberTargets_ok : ∀ (hs : List H) (ps : List ℕ) (m : PosMap H), hs.length ≤ ps.length →
    rememberTargets hs ps m = .ok ((hs.zip ps).foldl (fun m e => PosMap.insert m e.1 e.2) m) := by
  intro hs
  induction hs with
  | nil => intro ps m _; rfl
  | cons h hs ih =>
    intro ps m hl
    cases ps with
    | nil => simp at hl
    | cons p ps =>
      rw [rememberTargets, ih _ _ (by simpa using hl)]
      rfl

/-- The target hashes are those of the forest with leaves `f` and the proof hashes fit the proof nodes. -/
def Hon (n : ℕ) (f : ℕ → H) (A : Addr) (proof : BatchProof H) (hs : List H) : Prop :=
  hs = proof.sorted.map f ∧
    Reads HashOps.zero (planRev A (mt f) (Pn n proof.sorted) (St.numRows n + 1)) proof.hashes.reverse

/-- The proof with the hashes of all proof nodes fits. -/
theorem hon_full {n : ℕ} {f : ℕ → H} {A : Addr} {proof : BatchProof H} {hs : List H} (h1 : hs = proof.sorted.map f)
    (h2 : proof.hashes = (List.range' 0 (St.numRows n + 1)).flatMap fun q => (Pn n proof.sorted q).map (mt f q)) :
    Hon n f A proof hs := by
  refine ⟨h1, ?_⟩
  rw [h2, hashRev_eq, ← planRev_snd A]
  exact reads_full _ _

/-- The flags of remembered leaves are kept. -/
def FlagKeep (heap heap' : List (INode H)) (A : Addr) : Prop :=
  ∀ x p, A 0 x = some p → (nz heap (some p) 0).isSome → (nz heap' (some p) 0).isSome

/-- Only leaves in `D` have become remembered. -/
def FlagBack (heap heap' : List (INode H)) (n : ℕ) (A A1 : Addr) (D : List ℕ) : Prop :=
  ∀ x, Flag heap' (rtOf n) A1 x → Flag heap (rtOf n) A x ∨ x ∈ D

/-- The leaves that have become remembered are the first ones of `D`, as far as there is an object for their flag; those of them
that have an object came with their hash. -/
def FlagPre (heap heap' : List (INode H)) (n : ℕ) (A : Addr) (D : List ℕ) (f : ℕ → H) (hs : List H) : Prop :=
  Sane n D ∧ ∃ m, (∀ x, Flag heap' (rtOf n) A x ↔ Flag heap (rtOf n) A x ∨ (x ∈ D.take m ∧ (holder (rtOf n) A 0 x).isSome)) ∧
    ∀ i x, i < m → D[i]? = some x → (A 0 x).isSome → hs[i]? = some (f x)

/-- What is known after an accepted verification. -/
structure Accepted (s s' : Pollard H) (n : ℕ) (f : ℕ → H) (A A1 : Addr) (D : List ℕ) (hs : List H) : Prop where
  sane : Sane n D
  ph : PH s' n A1 (cv s'.ext A1)
  out : ∀ r y, ¬ y < n / 2 ^ r → A1 r y = none
  ext : ∀ r x p, A r x = some p → A1 r x = some p
  old : ∀ r x p, A r x = some p → cv s'.ext A1 r x = mt f r x
  new : ∀ r x p, A1 r x = some p → A r x = none → x ∈ Vn n D r
  pres : ∀ r x, x ∈ Vn n D r → (A1 r x).isSome
  sem : ∀ r y, y ∈ Cn n D (r + 1) →
    (cv s'.ext A1 r (2 * y) = mt f r (2 * y) ∧ cv s'.ext A1 r (2 * y + 1) = mt f r (2 * y + 1)) ∨
    cv s'.ext A1 (r + 1) y = HashOps.ph (cv s'.ext A1 r (2 * y)) (cv s'.ext A1 r (2 * y + 1))
  tgt : hs = D.map (cv s'.ext A1 0)
  ready : Ready s'.ext n A1 D
  keep : FlagKeep s.ext s'.ext A
  back : FlagBack s.ext s'.ext n A A1 D
  posmap : s'.posmap = (hs.zip D).foldl (fun m e => PosMap.insert m e.1 e.2) s.posmap

/-- The call's data. -/
def ctxOf (s : Pollard H) (n : ℕ) (f : ℕ → H) (A : Addr) (proof : BatchProof H) (hs : List H) : Ctx H where
  prf := proof.hashes.reverse
  n := n
  D := proof.sorted
  A0 := A
  heap0 := s.ext
  c := mt f
  hon := Hon n f A proof hs
  hs := hs

theorem base_of {K : Ctx H} (hK : K.Ok) {c : CPT H} {cs : List (ℕ × ℕ)} {A1 : Addr} (I : CI K c 0 K.D cs A1) (P : Prog K c A1 0 []) :
    Base K A1 cs c.heap where
  ok := hK
  ext := I.ext
  new := fun r x p h h0 => (I.new r x p h h0).2
  nodup := I.nodup
  mem := by
    intro r x
    rw [I.mem]
    constructor
    · rintro (h | h)
      · exact h.2
      · omega
    · intro h; exact .inl ⟨Nat.zero_le _, h⟩
  pres := I.pres
  good := by
    intro hh r x hx
    have hm : (r, x) ∈ cs := by
      rw [I.mem]; left; exact ⟨Nat.zero_le _, (Vn_cases hK.sane).2 (.inr hx)⟩
    obtain ⟨p, hp⟩ := Option.isSome_iff_exists.1 (I.pres _ _ hm)
    rw [val_some hp]
    refine P.good hh r x p hx ?_ hp
    rcases Nat.eq_zero_or_pos r with h | h
    · right; simp [h]
    · exact .inl h

theorem tau_final (n : ℕ) (D : List ℕ) : tau n D 0 D = tauF n D := by
  funext r x
  unfold tau tauF
  rw [decide_eq_decide]
  constructor
  · rintro (h | ⟨rfl, h⟩)
    · exact h.2
    · exact h
  · intro h
    rcases Nat.eq_zero_or_pos r with e | e
    · subst e; exact .inr ⟨rfl, h⟩
    · exact .inl ⟨e, h⟩

theorem vi_of {K : Ctx H} (hK : K.Ok) {c : CPT H} {cs : List (ℕ × ℕ)} {A1 : Addr} (I : CI K c 0 K.D cs A1) (hs : List H) (he : hs = K.hs := by rfl) :
    VI K hs A1 cs c.heap (VPT.mk c.heap c.arena hs) (fun _ _ => false) 0 [] where
  shape := I.shape
  old := by
    intro r x p hp
    have hb := hK.shape.bnd _ _ _ hp
    rw [I.old p hb.2]
    exact hK.hashed _ _ _ hp
  prf := fun _ _ _ => rfl
  len := rfl
  arena := by
    show c.arena = _
    rw [I.arena, tau_final]
  flg := by
    intro x p hp hf
    show (nz c.heap (some p) 0).isSome
    rw [I.flg x p hp]; exact hf
  fnew := fun _ _ _ h => .inl h
  pre := ⟨0, ⟨fun _ _ _ h => .inl h, by simp⟩, fun i x h => absurd h (by omega)⟩
  fdone := fun _ => ⟨fun _ _ _ h => .inl h, by simp⟩
  same := he
  flags := by intro r y h; simp at h
  sem := by
    intro r y h
    rcases h with ⟨h, -⟩ | ⟨h, -⟩ <;> omega
  tgt := by simp
  flag := by
    intro x h
    rcases h with ⟨h, -⟩ | ⟨-, h⟩
    · omega
    · simp at h
  hon := by
    intro _ r x h
    rcases h with ⟨h, -⟩ | ⟨-, h⟩
    · omega
    · simp at h

theorem RootsAt.ext {roots : List PNode} {A A1 : Addr} {n : ℕ} (h : RootsAt roots A (rootCoords n)) (hr : ∀ r i, rtOf n r i = true → (A r i).isSome)
    (he : ∀ r x p, A r x = some p → A1 r x = some p) : RootsAt roots A1 (rootCoords n) := by
  have key : ∀ e ∈ rootCoords n, A1 e.1 e.2 = A e.1 e.2 := by
    intro e hm
    unfold rootCoords at hm
    obtain ⟨t, ht, rfl⟩ := List.mem_map.1 hm
    have : rtOf n t (rootIdx n t) = true := rtOf_true.2 ⟨((mem_treeRows).1 ht).2, rfl⟩
    obtain ⟨p, hp⟩ := Option.isSome_iff_exists.1 (hr _ _ this)
    rw [hp]; exact he _ _ _ hp
  have k2 : (rootCoords n).map (fun c => A1 c.1 c.2) = (rootCoords n).map fun c => A c.1 c.2 := List.map_congr_left key
  exact ⟨by rw [k2]; exact h.node, by rw [k2]; exact h.sib, h.up⟩

theorem checkSanity_ok {n : ℕ} (hn62 : n ≤ 2 ^ 62) (proof : BatchProof H) :
    ∃ b, checkSanity proof n = .ok b ∧ (b = true ↔ Sane n proof.sorted ∧
      proof.hashes.length ≤ ((List.range' 0 (St.numRows n + 1)).flatMap fun q => (Pn n proof.sorted q)).length) := by
  obtain ⟨b, e, hb⟩ := C07_checkTargetsSanity n proof.sorted
  unfold checkSanity
  rw [e, ok_bind]
  cases b with
  | false =>
    refine ⟨false, rfl, ?_⟩
    simp only [Bool.false_eq_true, false_iff] at hb ⊢
    rintro ⟨h, -⟩
    exact hb ⟨h.sorted, h.lt⟩
  | true =>
    have hS : Sane n proof.sorted := ⟨hn62, (hb.1 rfl).1, (hb.1 rfl).2⟩
    simp only [Bool.not_true, Bool.false_eq_true, if_false]
    rw [proofPositions_rows hS, ok_bind]
    refine ⟨_, rfl, ?_⟩
    simp only [ge_iff_le, decide_eq_true_eq, List.length_flatMap, List.length_map, hS, true_and]

theorem arena_sib {K : Ctx H} {cs : List (ℕ × ℕ)} {A1 : Addr} {arena : List VNode} {τ ν : ℕ → ℕ → Bool}
    (h : arena = cs.map (vn K.n K.A0 A1 cs τ ν)) (i : ℕ) (e : ℕ × ℕ) (he : cs[i]? = some e) :
    ∃ v : VNode, arena[i]? = some v ∧ v.sib = holder (rtOf K.n) A1 e.1 e.2 := by
  refine ⟨vn K.n K.A0 A1 cs τ ν e, ?_, rfl⟩
  rw [h, List.getElem?_map, he]; rfl

theorem holder_ext {rt : ℕ → ℕ → Bool} {A A1 : Addr} (h : ∀ r x p, A r x = some p → A1 r x = some p) {q i p : ℕ}
    (hp : holder rt A q i = some p) : holder rt A1 q i = some p := by
  rcases holder_some hp with ⟨h1, h2⟩ | ⟨h1, h2, h3⟩
  · rw [holder_root h1, h _ _ _ h2]
  · rw [holder_sib h1 h2, h _ _ _ h3]

theorem flagBack_of {K : Ctx H} {c : CPT H} {dn : List ℕ} {cs : List (ℕ × ℕ)} {A1 A2 : Addr} {k : ℕ} {t : VPT H} {ν : ℕ → ℕ → Bool}
    {heap' : List (INode H)} (I : CI K c k dn cs A1) (W : VW K A1 cs c.heap t ν)
    (h1 : ∀ r x p, K.A0 r x = some p → A2 r x = some p) (h2 : ∀ r x p, A2 r x = some p → A1 r x = some p)
    (h3 : ∀ x p, A2 0 x = some p → (nz heap' (some p) 0).isSome → (nz t.heap (some p) 0).isSome) :
    FlagBack K.heap0 heap' K.n K.A0 A2 K.D := by
  intro x hx
  obtain ⟨p, g1, g2⟩ := hx.holder
  obtain ⟨j, hj⟩ := holder_addr g1
  rcases W.fnew j p (h2 _ _ _ hj) (h3 j p hj g2) with h | ⟨y, hy, h⟩
  · left
    have key : ∀ z, A2 0 z = some p → K.A0 0 z = some p := by
      intro z hz
      cases h0 : K.A0 0 z with
      | none =>
        rw [I.fnew z p (h2 _ _ _ hz) h0] at h
        simp at h
      | some p' =>
        rw [h1 _ _ _ h0] at hz
        exact hz
    rw [I.flg j p (key j hj)] at h
    have hh : holder (rtOf K.n) K.A0 0 x = some p := by
      rcases holder_some g1 with ⟨e1, e2⟩ | ⟨e1, e2, e3⟩
      · rw [holder_root e1, key _ e2]
      · rw [holder_sib e1 e2, key _ e3]
    unfold Flag
    rw [hh]
    exact h
  · right
    obtain ⟨-, rfl⟩ := W.shape.holder_inj (holder_ext h2 g1) h
    exact hy

theorem flagPre_of {K : Ctx H} {c : CPT H} {dn : List ℕ} {cs : List (ℕ × ℕ)} {A1 : Addr} {k : ℕ} {heap heap' : List (INode H)}
    {l : List ℕ} (I : CI K c k dn cs A1) (s : Shape heap (rtOf K.n) A1) (F : FPre K A1 c.heap heap l)
    (h1 : ∀ x p, K.A0 0 x = some p → (nz K.heap0 (some p) 0).isSome → (nz heap (some p) 0).isSome)
    (h2 : ∀ x p, K.A0 0 x = some p → nz heap' (some p) 0 = nz heap (some p) 0) (x : ℕ) :
    Flag heap' (rtOf K.n) K.A0 x ↔ Flag K.heap0 (rtOf K.n) K.A0 x ∨ (x ∈ l ∧ (holder (rtOf K.n) K.A0 0 x).isSome) := by
  constructor
  · intro hx
    obtain ⟨p, g1, g2⟩ := hx.holder
    obtain ⟨j, hj⟩ := holder_addr g1
    rw [h2 j p hj] at g2
    rcases F.back j p (I.ext _ _ _ hj) g2 with h | ⟨y, hy, h⟩
    · left
      rw [I.flg j p hj] at h
      unfold Flag
      rw [g1]; exact h
    · right
      obtain ⟨-, rfl⟩ := s.holder_inj (holder_ext I.ext g1) h
      exact ⟨hy, by rw [g1]; rfl⟩
  · rintro (hx | ⟨hx, hp⟩)
    · obtain ⟨p, g1, g2⟩ := hx.holder
      obtain ⟨j, hj⟩ := holder_addr g1
      unfold Flag
      rw [g1, h2 j p hj]
      exact h1 j p hj g2
    · obtain ⟨p, g1⟩ := Option.isSome_iff_exists.1 hp
      obtain ⟨j, hj⟩ := holder_addr g1
      have := F.all x hx
      rw [holder_ext I.ext g1] at this
      unfold Flag
      rw [g1, h2 j p hj]
      exact this

/-- All outcomes of `Verify`. -/
theorem verify_ok {s : Pollard H} {n : ℕ} {f : ℕ → H} {A : Addr} (h : Inv s n f A) (hn62 : n ≤ 2 ^ 62) (proof : BatchProof H) (hs : List H) :
    (verify s proof hs = .ok (false, s) ∧ (hs.length ≠ proof.targets.length ∨ ¬ Sane n proof.sorted ∨ ¬ Hon n f A proof hs)) ∨
    (verify s proof hs = .ok (true, s) ∧ proof.targets = [] ∧ hs = []) ∨
    (verify s proof hs = .error .ub ∧ ¬ Hon n f A proof hs ∧ ∃ r x p, A r x = some p ∧ mt f r x = HashOps.zero) ∨
    (∃ s', verify s proof hs = .ok (false, s') ∧ ¬ Hon n f A proof hs ∧ s'.posmap = s.posmap ∧ Inv s' n f A ∧ FlagKeep s.ext s'.ext A ∧
      FlagBack s.ext s'.ext n A A proof.sorted ∧ FlagPre s.ext s'.ext n A proof.sorted f hs) ∨
    (∃ s' A1, verify s proof hs = .ok (true, s') ∧ proof.targets ≠ [] ∧ Accepted s s' n f A A1 proof.sorted hs ∧
      Reads HashOps.zero (planRev A (cv s'.ext A1) (Pn n proof.sorted) (St.numRows n + 1)) proof.hashes.reverse ∧
      (Hon n f A proof hs → ∀ r x, x ∈ Vn n proof.sorted r → cv s'.ext A1 r x = mt f r x)) := by
  unfold verify
  by_cases hl : hs.length ≠ proof.targets.length
  · rw [if_pos hl]; exact .inl ⟨rfl, .inl hl⟩
  rw [if_neg hl]
  have hl' : hs.length = proof.targets.length := not_not.1 hl
  obtain ⟨b, e, hb⟩ := checkSanity_ok (H := H) hn62 proof
  rw [h.ph.num, e, ok_bind]
  cases b with
  | false =>
    left
    refine ⟨rfl, .inr ?_⟩
    simp only [Bool.false_eq_true, false_iff] at hb
    by_cases hS : Sane n proof.sorted
    · right
      intro hh
      apply hb
      refine ⟨hS, ?_⟩
      have := reads_length _ _ hh.2
      rw [List.length_reverse, planRev_length] at this
      exact this
    · exact .inl hS
  | true =>
    have hS := (hb.1 rfl).1
    simp only [Bool.not_true, Bool.false_eq_true, if_false]
    by_cases ht : proof.targets.length = 0
    · rw [if_pos ht]
      exact .inr (.inl ⟨rfl, List.length_eq_zero_iff.1 ht, List.length_eq_zero_iff.1 (by omega)⟩)
    rw [if_neg ht]
    have hne : proof.targets ≠ [] := fun e => ht (by rw [e]; rfl)
    right; right
    have hK : (ctxOf s n f A proof hs).Ok := ⟨hS, h.ph.shape, h.ph.hashed, h.out, fun r x => mt_succ f r x⟩
    have hD : Hon n f A proof hs → proof.sorted ≠ [] := by
      intro hh e0
      have := hh.1
      rw [e0] at this
      rw [this] at hl'
      exact ht hl'.symm
    rcases createProofTree_ok (K := ctxOf s n f A proof hs) (s := s) (proof := proof) hK h.ph.num rfl h.ph.roots rfl rfl (fun hh => hh.2) with
      ⟨e1, hz⟩ | ⟨c, tree, e1, ⟨cs, A1, I, P, etree⟩, hc⟩ | ⟨c, tree, e1, nh, k, dn, cs, A1, I⟩
    · left
      rw [e1]
      exact ⟨rfl, hz.1, hz.2⟩
    · right
      rw [e1]
      simp only [ok_bind, if_true]
      have B := base_of hK I P
      have V := vi_of hK I hs
      -- a failure in the second phase
      have fin : ∀ (t' : VPT H) (ν : ℕ → ℕ → Bool), VW (ctxOf s n f A proof hs) A1 cs c.heap t' ν →
          ∃ heap', recover t'.arena c.recovery t'.heap = .ok heap' ∧
            Inv (Acc.mk n c.roots s.posmap heap') n f A ∧ FlagKeep s.ext heap' A ∧ FlagBack s.ext heap' n A A proof.sorted ∧
              FlagPre s.ext heap' n A proof.sorted f hs := by
        intro t' ν W
        obtain ⟨heap', r1, r2, r3, r4, r5⟩ := restore_ok hK (arena_sib W.arena) W.shape I.ext W.old (fun r x hx => B.hold hx) I.rc I.recs
        refine ⟨heap', r1, ⟨⟨rfl, r3, r4, I.roots, ?_⟩, h.out⟩, fun x p hp hf => by rw [r5 x p hp]; exact W.flg x p hp hf,
          flagBack_of I W (fun _ _ _ h => h) I.ext (fun x p hp hf => by rw [← r5 x p hp]; exact hf), ?_⟩
        swap
        · obtain ⟨m, F, M⟩ := W.pre
          exact ⟨hS, m, flagPre_of I W.shape F W.flg r5, M⟩
        show 0 < heap'.length
        rw [r2, W.len]
        have := I.len
        have h0 : 0 < s.ext.length := h.ph.pos
        have h1 : s.ext.length ≤ c.heap.length := this
        omega
      have key : (∃ t' ν', verifyProofTree n (VPT.mk c.heap c.arena hs) tree = .ok (true, t') ∧
            Done (ctxOf s n f A proof hs) hs A1 cs c.heap t' ν' ∧ t'.targets = []) ∨
          (∃ t' ν', verifyProofTree n (VPT.mk c.heap c.arena hs) tree = .ok (false, t') ∧ ¬ Hon n f A proof hs ∧
            VW (ctxOf s n f A proof hs) A1 cs c.heap t' ν') := by
        by_cases hD0 : proof.sorted = []
        · right
          refine ⟨VPT.mk c.heap c.arena hs, _, ?_, fun hh => hD hh hD0, V.toVW⟩
          have : tree = [] := by
            have e2 : tree = (Vn n proof.sorted 0).map fun y => cs.idxOf (0, y) := etree
            have hv : Vn n proof.sorted 0 = [] := by rw [hD0]; rfl
            rw [e2, hv]; rfl
          rw [this]
          have hn0 : hs ≠ [] := by intro e0; rw [e0] at hl'; exact ht hl'.symm
          unfold verifyProofTree
          rw [vptRows]
          cases hs with
          | nil => exact absurd rfl hn0
          | cons a l => rfl
        · have := verifyProofTree_ok (K := ctxOf s n f A proof hs) B (fun hh => by
            have := hh.1
            rw [this]
            rfl) hD0 V
          have e2 : tree = (Vn n proof.sorted 0).map fun y => cs.idxOf (0, y) := etree
          rw [e2]
          exact this
      rcases key with ⟨t', ν', e2, d, te⟩ | ⟨t', ν', e2, nh, W⟩
      · right
        rw [e2]
        simp only [ok_bind, Bool.not_true, Bool.false_eq_true, if_false]
        have tg := d.tgt
        rw [te, List.map_nil, List.append_nil] at tg
        have hlen : hs.length = proof.sorted.length := by
          have := congrArg List.length tg
          rw [List.length_map, List.length_map] at this
          exact this
        rw [rememberTargets_ok _ _ _ (by omega), ok_bind]
        have pr : ∀ r x, x ∈ Vn n proof.sorted r → (A1 r x).isSome := fun r x hx => B.pres r x ((B.mem r x).2 hx)
        have vc : ∀ r x, x ∈ Vn n proof.sorted r → val t'.heap A1 r x = some (cv t'.heap A1 r x) := by
          intro r x hx
          obtain ⟨p, hp⟩ := Option.isSome_iff_exists.1 (pr r x hx)
          exact val_cv d.shape hp
        refine ⟨Acc.mk n c.roots _ t'.heap, A1, rfl, hne, ?_, ?_, ?_⟩
        · refine ⟨hS, ⟨rfl, d.shape, hashed_cv d.shape, I.roots.ext h.ph.shape.root I.ext, ?_⟩, ?_, I.ext, ?_, ?_, pr, ?_, ?_, ⟨?_, d.flag⟩, d.flg,
              flagBack_of I d.toVW I.ext (fun _ _ _ h => h) (fun _ _ _ h => h), rfl⟩
          · show 0 < t'.heap.length
            rw [d.len]
            have h0 : 0 < s.ext.length := h.ph.pos
            have h1 : s.ext.length ≤ c.heap.length := I.len
            omega
          · intro r y hy
            cases h1 : A1 r y with
            | none => rfl
            | some p => exact absurd (B.inn (B.new r y p h1 (h.out r y hy))) hy
          · intro r x p hp
            refine cv_of ?_
            rw [val_some (I.ext _ _ _ hp), d.old _ _ _ hp]; rfl
          · intro r x p h1 h2
            exact (B.mem r x).1 (B.new r x p h1 h2)
          · intro r y hy
            rcases d.sem r y hy with ⟨a1, a2⟩ | ⟨a, b, a1, a2, a3⟩
            · exact .inl ⟨cv_of a1, cv_of a2⟩
            · right
              show cv t'.heap A1 (r + 1) y = HashOps.ph (cv t'.heap A1 r (2 * y)) (cv t'.heap A1 r (2 * y + 1))
              rw [cv_of a1, cv_of a2, cv_of a3]
          · have : hs.map some = (proof.sorted.map (cv t'.heap A1 0)).map some := by
              rw [tg, List.map_map]
              apply List.map_congr_left
              intro x hx
              exact vc 0 x (Cn_sub hS (k := 0) hx)
            exact List.map_injective_iff.2 (Option.some_injective H) this
          · intro t hm q _ hq
            have hC : t / 2 ^ q ∈ Cn n proof.sorted q := (mem_Cn hS).2 ⟨hq, t, hm, rfl⟩
            have hv := Cn_sub hS hC
            obtain ⟨p, hp⟩ := B.hold ((B.mem _ _).2 hv)
            exact ⟨pr _ _ hv, by rw [show holder (rtOf n) A1 q (t / 2 ^ q) = some p from hp]; rfl⟩
        · refine P.back _ ?_ (by rw [hc]; rfl)
          intro r x p hx _ hp
          have h1 := d.prf r x hx
          rw [show val t'.heap A1 r x = _ from vc r x ((Vn_cases hS).2 (.inr hx)), val_some hp] at h1
          exact h1.symm
        · intro hh r x hx
          refine cv_of ?_
          rcases (Vn_cases hS).1 hx with hx | hx
          · exact d.hon hh r x hx
          · rw [show val t'.heap A1 r x = _ from d.prf r x hx]
            exact B.good hh r x hx
      · left
        rw [e2]
        simp only [ok_bind, Bool.not_false, if_true]
        obtain ⟨heap', r1, r2⟩ := fin t' ν' W
        rw [r1]
        exact ⟨_, rfl, nh, rfl, r2⟩
    · right; left
      rw [e1]
      simp only [ok_bind, Bool.false_eq_true, if_false, pure_ok, Bool.not_false, if_true]
      obtain ⟨heap', r1, r2, r3, r4, r5⟩ := restore_ok hK (arena_sib I.arena) I.shape I.ext (by
          intro r x p hp
          have hb := hK.shape.bnd _ _ _ hp
          rw [I.old p hb.2]
          exact hK.hashed _ _ _ hp) (fun r x hx => I.hold hK hx) I.rc I.recs
      rw [r1]
      refine ⟨_, rfl, nh, rfl, ⟨⟨rfl, r3, r4, I.roots, ?_⟩, h.out⟩, fun x p hp hf => by
        show (nz heap' (some p) 0).isSome
        rw [r5 x p hp, I.flg x p hp]; exact hf, fun x hx => by
        left
        obtain ⟨p, g1, g2⟩ := hx.holder
        obtain ⟨j, hj⟩ := holder_addr g1
        unfold Flag
        rw [g1]
        have g3 : (nz heap' (some p) 0).isSome := g2
        rw [r5 j p hj, I.flg j p hj] at g3
        exact g3, hS, 0, flagPre_of I I.shape ⟨fun _ _ _ h => .inl h, by simp⟩ (fun x p hp hf => by rw [I.flg x p hp]; exact hf) r5,
        fun i x h => absurd h (by omega)⟩
      show 0 < heap'.length
      rw [r2]
      have h0 : 0 < s.ext.length := h.ph.pos
      have h1 : s.ext.length ≤ c.heap.length := I.len
      omega


end Pol
end Utreexo
